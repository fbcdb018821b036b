/-
C154: how many Hessian products the inner solver of trust regions needs, in terms of the eigenvalues
of the preconditioned Hessian.
-/
import Verif.Geo.Lemmas.SpectralPoly
import Verif.Opt.Props.Krylov

namespace Verif.Opt
open PyNum Polynomial Verif.Geo
open scoped InnerProductSpace

variable {P V : Type*} [NormedAddCommGroup V] [InnerProductSpace ℝ V]

/-! ### Specification -/

/-- The eigenvalues of the preconditioned Hessian lie between `a` and `b`, in terms of quadratic
forms. -/
def PreconSpectrum (H : V →ₗ[ℝ] V) (W : V ≃ₗ[ℝ] V) (a b : ℝ) : Prop :=
  ∀ v, a * ⟪v, H v⟫_ℝ ≤ ⟪H v, W.symm (H v)⟫_ℝ ∧ ⟪H v, W.symm (H v)⟫_ℝ ≤ b * ⟪v, H v⟫_ℝ

section
variable {c : TRCfg ℝ} {pb : Prob ℝ P V} {x : P} {H : V →ₗ[ℝ] V} {W : V ≃ₗ[ℝ] V} {g : V}
  {Delta normr0 : ℝ} {mininner : ℤ} {j : ℕ} {s : TCGState ℝ V}

theorem quad_gap (hsym : ∀ u v, ⟪H u, v⟫_ℝ = ⟪u, H v⟫_ℝ) {y : V} (hy : H y = -g) (u : V) :
    quad g H u - quad g H y = 1 / 2 * ⟪u - y, H (u - y)⟫_ℝ := by
  have h := quad_add (g := g) hsym y (u - y) 1
  rw [one_smul, add_sub_cancel, hy, add_neg_cancel, inner_zero_right] at h
  rw [h]
  ring

/-- The preconditioned Hessian. -/
noncomputable def preconHess (H : V →ₗ[ℝ] V) (W : V ≃ₗ[ℝ] V) : V →ₗ[ℝ] V :=
  W.symm.toLinearMap ∘ₗ H

theorem aeval_mem_krylovSpace {k : ℕ} {q : ℝ[X]} (hq : q.natDegree < k) :
    aeval (preconHess H W) q (W.symm g) ∈ krylovSpace g H W k := by
  rw [aeval_eq_sum_range' hq, LinearMap.sum_apply]
  refine Submodule.sum_mem _ fun i hi => ?_
  rw [LinearMap.smul_apply]
  refine Submodule.smul_mem _ _ (Submodule.subset_span ⟨i, Finset.mem_range.1 hi, ?_⟩)
  rw [Module.End.pow_apply]
  rfl

/-- The model value in terms of polynomials of the preconditioned Hessian. -/
theorem krylov_poly (hsym : ∀ u v, ⟪H u, v⟫_ℝ = ⟪u, H v⟫_ℝ) {y : V} (hy : H y = -g) {k : ℕ} {e : V}
    (he : ∀ u ∈ krylovSpace g H W k, quad g H e ≤ quad g H u) {p : ℝ[X]} (hp : p.natDegree ≤ k)
    (hp0 : p.eval 0 = 1) :
    quad g H e - quad g H y ≤
      1 / 2 * ⟪H (aeval (preconHess H W) p y), aeval (preconHess H W) p y⟫_ℝ := by
  have hpe : p = divX p * X + 1 := by
    conv_lhs => rw [← divX_mul_X_add p, coeff_zero_eq_eval_zero, hp0, map_one]
  have hap : aeval (preconHess H W) (divX p) (W.symm g) - y = -aeval (preconHess H W) p y := by
    conv_rhs => rw [hpe]
    rw [map_add, map_mul, aeval_X, map_one, LinearMap.add_apply, Module.End.mul_apply,
      Module.End.one_apply]
    have : preconHess H W y = -W.symm g := by
      change W.symm (H y) = _
      rw [hy, map_neg]
    rw [this, map_neg]
    abel
  have hmem : aeval (preconHess H W) (divX p) (W.symm g) ∈ krylovSpace g H W k := by
    rcases Nat.eq_zero_or_pos k with rfl | hk
    · have : divX p = 0 := by
        rw [divX_eq_zero_iff]
        exact eq_C_of_natDegree_eq_zero (Nat.le_zero.1 hp)
      rw [this, map_zero, LinearMap.zero_apply]
      exact Submodule.zero_mem _
    · refine aeval_mem_krylovSpace ?_
      rw [natDegree_divX_eq_natDegree_tsub_one]
      omega
  have h1 := he _ hmem
  have h2 := quad_gap hsym hy (aeval (preconHess H W) (divX p) (W.symm g))
  rw [hap, map_neg, inner_neg_neg, real_inner_comm] at h2
  linarith

theorem hessInner (hsym : ∀ u v, ⟪H u, v⟫_ℝ = ⟪u, H v⟫_ℝ) (hpd : ∀ u, u ≠ 0 → 0 < ⟪u, H u⟫_ℝ) :
    IsInner fun u v => ⟪H u, v⟫_ℝ where
  add_left u v w := by rw [map_add, inner_add_left]
  smul_left a u v := by rw [map_smul, real_inner_smul_left]
  symm u v := by rw [hsym, real_inner_comm]
  nonneg u := by
    by_cases h : u = 0
    · simp [h]
    · rw [hsym]; exact (hpd u h).le
  definite u h := by
    by_contra hu
    have := hpd u hu
    rw [← hsym, h] at this
    exact lt_irrefl _ this

/-- The accuracy of a minimiser over a Krylov space. -/
theorem krylov_rate [FiniteDimensional ℝ V] (hWs : ∀ u v, ⟪W u, v⟫_ℝ = ⟪u, W v⟫_ℝ)
    (hsym : ∀ u v, ⟪H u, v⟫_ℝ = ⟪u, H v⟫_ℝ) (hpd : ∀ u, u ≠ 0 → 0 < ⟪u, H u⟫_ℝ) {a b : ℝ}
    (ha : 0 < a) (hab : a ≤ b) (hw : PreconSpectrum H W a b) {y : V} (hy : H y = -g) {k : ℕ} {e : V}
    (he : ∀ u ∈ krylovSpace g H W k, quad g H e ≤ quad g H u) :
    quad g H e - quad g H y ≤ 4 * chebRate a b ^ (2 * k) * (quad g H 0 - quad g H y) := by
  obtain ⟨p, hp, hp0, hpM⟩ := exists_chebyshev ha hab k
  have h1 := krylov_poly hsym hy he hp hp0
  have hWs' : ∀ u v, ⟪W.symm u, v⟫_ℝ = ⟪u, W.symm v⟫_ℝ := by
    intro u v
    have := hWs (W.symm u) (W.symm v)
    rw [W.apply_symm_apply, W.apply_symm_apply] at this
    exact this.symm
  have h2 := (hessInner hsym hpd).aeval_le (T := preconHess H W)
    (fun u v => by
      change ⟪H (W.symm (H u)), v⟫_ℝ = ⟪H u, W.symm (H v)⟫_ℝ
      rw [hsym, hWs']) (a := a) (b := b)
    (fun v => by
      have := (hw v).1
      rwa [← hsym] at this)
    (fun v => by
      have := (hw v).2
      rwa [← hsym] at this) hpM y
  have h3 := quad_gap hsym hy 0
  rw [zero_sub, map_neg, inner_neg_neg, ← hsym] at h3
  rw [h3]
  have e : (2 * chebRate a b ^ k) ^ 2 = 4 * chebRate a b ^ (2 * k) := by
    rw [mul_pow, ← pow_mul, mul_comm k]
    norm_num
  rw [e] at h2
  linarith

theorem KInv.minimal (hsym : ∀ u v, ⟪H u, v⟫_ℝ = ⟪u, H v⟫_ℝ)
    (hpd : ∀ u, u ≠ 0 → 0 < ⟪u, H u⟫_ℝ) (hs : KInv g H W j s) {u : V}
    (hu : u ∈ krylovSpace g H W j) : quad g H s.eta ≤ quad g H u := by
  obtain ⟨D, N, hT⟩ := hs.inv
  have hv := Submodule.sub_mem _ hu hT.eta_mem
  have h1 := quad_add (g := g) hsym s.eta (u - s.eta) 1
  rw [one_smul, add_sub_cancel, ← hT.r, hT.r_perp _ hv] at h1
  by_cases h0 : u - s.eta = 0
  · rw [sub_eq_zero.1 h0]
  · have := hpd _ h0
    rw [h1]
    linarith

/-- The state before the last inner iteration (or after it, if the limit stops the solver). -/
theorem tcgLoop_exit [FiniteDimensional ℝ V] (hE : ExactAt pb x H) (hW : PreconAt c pb x W)
    (hsym : ∀ u v, ⟪H u, v⟫_ℝ = ⟪u, H v⟫_ℝ) (n : ℕ) (hs : KInv g H W j s)
    (hlast : ∀ i, j = i + 1 → ¬ (mininner ≤ (i : ℤ) ∧ ‖s.r‖ ≤ tcgTarget c normr0)) {o : TCGOut V}
    (h : tcgLoop c pb x g Delta normr0 mininner n j s = .ok o) :
    o.j + 1 ≤ Module.finrank ℝ (krylovSpace g H W (o.j + 1)) ∧
    ∃ i s', o.j ≤ i ∧ KInv g H W i s' ∧
      ∀ k, i = k + 1 → ¬ (mininner ≤ (k : ℤ) ∧ ‖s'.r‖ ≤ tcgTarget c normr0) := by
  induction n generalizing j s with
  | zero =>
    cases j with
    | zero => cases h
    | succ j =>
      cases h
      exact ⟨hs.rank.ge, j + 1, s, by simp, hs, hlast⟩
  | succ n ih =>
    have hrank : s.delta ≠ 0 → j + 1 ≤ Module.finrank ℝ (krylovSpace g H W (j + 1)) := by
      intro hd
      have hlt : krylovSpace g H W j < krylovSpace g H W (j + 1) := by
        refine lt_of_le_of_ne (krylovSpace_mono (Nat.le_succ j)) fun heq => hs.delta_notMem hd ?_
        rw [heq, ← hs.succ]
        exact Submodule.mem_sup_right (Submodule.mem_span_singleton_self _)
      have := Submodule.finrank_lt_finrank_of_lt hlt
      rw [hs.rank] at this
      exact this
    obtain ⟨D, N, hT⟩ := hs.inv
    unfold tcgLoop at h
    rw [tcgBody_exact hE hW j hT.Heta] at h
    by_cases hbd : ⟪s.delta, H s.delta⟫_ℝ ≤ 0 ∨ Delta ^ 2 ≤ (cgNext g H W s).ePe
    · rw [if_pos hbd] at h
      by_cases h0 : s.dPd = 0
      · rw [if_pos h0] at h
        cases h
      · rw [if_neg h0] at h
        cases h
        refine ⟨hrank ?_, j, s, le_rfl, hs, hlast⟩
        intro hd
        rw [hT.dPd, hd, inner_zero_left] at h0
        exact h0 rfl
    · rw [if_neg hbd] at h
      rw [not_or, not_le, not_le] at hbd
      obtain ⟨hd, hin⟩ := hbd
      have hd0 : s.delta ≠ 0 := by
        rintro h
        rw [h, inner_zero_left] at hd
        exact lt_irrefl _ hd
      rw [if_neg (not_le.2 (hs.decrease hW hsym hd))] at h
      by_cases ht : mininner ≤ (j : ℤ) ∧ ‖(cgNext g H W s).r‖ ≤ tcgTarget c normr0
      · rw [if_pos ht] at h
        cases h
        exact ⟨hrank hd0, j, s, le_rfl, hs, hlast⟩
      · rw [if_neg ht, if_neg (hs.zr_pos hW (hs.r_ne_zero hd0)).ne'] at h
        exact ih (hs.next hW hsym hd) (fun i hi => by
          obtain rfl : j = i := by omega
          exact ht) h

theorem tcg_exit [FiniteDimensional ℝ V] (hE : ExactAt pb x H) (hW : PreconAt c pb x W)
    (hsym : ∀ u v, ⟪H u, v⟫_ℝ = ⟪u, H v⟫_ℝ) {maxinner : ℤ} {o : TCGOut V}
    (h : tcg c pb x g (pb.M.zeroVector x) Delta mininner maxinner = .ok o) :
    o.hessCalls ≤ Module.finrank ℝ (krylovSpace g H W o.hessCalls) ∧
    ∃ i s', o.hessCalls ≤ i + 1 ∧ KInv g H W i s' ∧
      ∀ k, i = k + 1 → mininner ≤ (k : ℤ) → tcgTarget c ‖g‖ < ‖s'.r‖ := by
  have hc : o.hessCalls = o.j + 1 := by
    unfold tcg at h
    exact tcgLoop_calls_eq _ _ h
  unfold tcg at h
  rw [tcgInit_exact hE hW] at h
  have hn : (PyNum.sqrt (pb.M.inner x g g) : ℝ) = ‖g‖ := by
    simp [PyNum.sqrt, hE.inner]
  simp only [hn] at h
  obtain ⟨h1, i, s', h2, h3, h4⟩ := tcgLoop_exit hE hW hsym _ (kinv_init g H W) (by simp) h
  rw [hc]
  refine ⟨h1, i, s', by omega, h3, fun k hk hm => ?_⟩
  have := h4 k hk
  rw [not_and, not_le] at this
  exact this hm

end

/-! ### C154 -/

section
variable {c : TRCfg ℝ} {pb : Prob ℝ P V} {x : P} {H : V →ₗ[ℝ] V} {W : V ≃ₗ[ℝ] V} {g : V}
  {Delta : ℝ} {mininner maxinner : ℤ} {o : TCGOut V}

/-- **C154** (accuracy): if the Hessian is positive definite, the step is not cut off at the boundary
of the region and the eigenvalues of the preconditioned Hessian lie between `a` and `b`, then the
model value of the step exceeds its minimum by at most `4 ((√b - √a) / (√b + √a)) ^ (2 n)` times what
the Newton step gains, where `n` is the number of Hessian products spent. -/
theorem C154_accuracy [FiniteDimensional ℝ V] (hE : ExactAt pb x H) (hW : PreconAt c pb x W)
    (hsym : ∀ u v, ⟪H u, v⟫_ℝ = ⟪u, H v⟫_ℝ) (hpd : ∀ u, u ≠ 0 → 0 < ⟪u, H u⟫_ℝ) {a b : ℝ}
    (ha : 0 < a) (hab : a ≤ b) (hw : PreconSpectrum H W a b) {y : V} (hy : H y = -g)
    (h : tcg c pb x g (pb.M.zeroVector x) Delta mininner maxinner = .ok o) (hi : o.stop.interior) :
    quad g H o.eta - quad g H y ≤
      4 * ((√b - √a) / (√b + √a)) ^ (2 * o.hessCalls) * (quad g H 0 - quad g H y) := by
  refine krylov_rate hW.symm hsym hpd ha hab hw hy fun u hu => ?_
  by_cases hne : u = o.eta
  · rw [hne]
  · exact ((C145_krylov_minimum hE hW hsym h).2 hi).2 u hu hne |>.le

/-- **C154** (number of Hessian products): if the Hessian is positive definite, a call needs at most
`1 + √(b/a)/2 · log (2 √(M/m) / τ)` Hessian products, where `τ = min(‖g‖ ** theta, kappa)`, `m` and
`M` bound the eigenvalues of the Hessian and `a` and `b` those of the preconditioned Hessian, unless
that is less than `mininner + 1`.  The radius and the dimension do not enter. -/
theorem C154_products [FiniteDimensional ℝ V] (hE : ExactAt pb x H) (hW : PreconAt c pb x W)
    (hsym : ∀ u v, ⟪H u, v⟫_ℝ = ⟪u, H v⟫_ℝ) {a b m M : ℝ} (ha : 0 < a) (hab : a ≤ b) (hm : 0 < m)
    (hmH : ∀ v, m * ‖v‖ ^ 2 ≤ ⟪v, H v⟫_ℝ) (hMH : ∀ v, ‖H v‖ ^ 2 ≤ M * ⟪v, H v⟫_ℝ)
    (hw : PreconSpectrum H W a b) (hk : 0 < c.kappa) (hg : g ≠ 0)
    (h : tcg c pb x g (pb.M.zeroVector x) Delta mininner maxinner = .ok o)
    (hn : max 0 mininner + 1 < o.hessCalls) :
    (o.hessCalls : ℝ) ≤
      1 + √(b / a) / 2 * Real.log (2 * √(M / m) / min (‖g‖ ^ c.theta) c.kappa) := by
  have hpd : ∀ u, u ≠ 0 → 0 < ⟪u, H u⟫_ℝ := fun u hu =>
    lt_of_lt_of_le (by have := norm_pos_iff.2 hu; positivity) (hmH u)
  obtain ⟨-, i, s, hi, hs, ht⟩ := tcg_exit hE hW hsym h
  have hb := ha.trans_le hab
  -- the Newton step
  have hinj : Function.Injective H := by
    rw [← LinearMap.ker_eq_bot, LinearMap.ker_eq_bot']
    intro v hv
    by_contra hne
    have := hpd v hne
    rw [hv, inner_zero_right] at this
    exact lt_irrefl _ this
  obtain ⟨y, hy⟩ := (LinearMap.injective_iff_surjective.1 hinj) (-g)
  have hg0 : 0 < ‖g‖ := norm_pos_iff.2 hg
  have hy0 : y ≠ 0 := by
    rintro rfl
    rw [map_zero] at hy
    exact hg (neg_eq_zero.1 hy.symm)
  have hM : 0 < M := by
    have h1 := hMH y
    rw [hy, norm_neg] at h1
    have h2 := hpd y hy0
    by_contra hM
    rw [not_lt] at hM
    have : M * ⟪y, -g⟫_ℝ ≤ 0 := by
      rw [← hy]
      exact mul_nonpos_of_nonpos_of_nonneg hM h2.le
    have : 0 < ‖g‖ ^ 2 := by positivity
    linarith
  set τ := min (‖g‖ ^ c.theta) c.kappa with hτ
  have hτ0 : 0 < τ := lt_min (Real.rpow_pos_of_pos hg0 _) hk
  obtain ⟨k, rfl⟩ : ∃ k, i = k + 1 := ⟨i - 1, by omega⟩
  have htgt : ‖g‖ * τ < ‖s.r‖ := ht k rfl (by omega)
  have hrate := krylov_rate (k := k + 1) hW.symm hsym hpd ha hab hw hy
    (fun u hu => hs.minimal hsym hpd hu)
  have hgap := quad_gap hsym hy s.eta
  have hgap0 := quad_gap hsym hy 0
  rw [zero_sub, map_neg, inner_neg_neg] at hgap0
  obtain ⟨D, N, hT⟩ := hs.inv
  have hr : s.r = H (s.eta - y) := by
    rw [hT.r, map_sub, hy, sub_neg_eq_add, add_comm]
  have h1 := hMH (s.eta - y)
  rw [show ‖H (s.eta - y)‖ = ‖s.r‖ by rw [hr]] at h1
  have h2 : m * ⟪y, H y⟫_ℝ ≤ ‖g‖ ^ 2 := by
    have e1 := abs_real_inner_le_norm y (H y)
    rw [abs_of_pos (hpd y hy0)] at e1
    have e2 : ‖H y‖ = ‖g‖ := by rw [hy, norm_neg]
    rw [e2] at e1
    have e3 := hmH y
    have hp := hpd y hy0
    have e4 : ⟪y, H y⟫_ℝ ^ 2 ≤ ‖y‖ ^ 2 * ‖g‖ ^ 2 := by
      rw [← mul_pow]
      exact pow_le_pow_left₀ hp.le e1 2
    have e5 : m * ⟪y, H y⟫_ℝ ^ 2 ≤ ⟪y, H y⟫_ℝ * ‖g‖ ^ 2 := by
      calc m * ⟪y, H y⟫_ℝ ^ 2 ≤ m * (‖y‖ ^ 2 * ‖g‖ ^ 2) := by gcongr
        _ = m * ‖y‖ ^ 2 * ‖g‖ ^ 2 := by ring
        _ ≤ _ := by gcongr
    have e6 : ⟪y, H y⟫_ℝ * (m * ⟪y, H y⟫_ℝ) ≤ ⟪y, H y⟫_ℝ * ‖g‖ ^ 2 := by linarith
    exact le_of_mul_le_mul_left e6 hp
  have hρ := chebRate_nonneg hab
  have h3 : chebRate a b ^ (2 * (k + 1)) ≤ Real.exp (-(4 * (k + 1) * √(a / b))) := by
    calc _ ≤ Real.exp (-(2 * √(a / b))) ^ (2 * (k + 1)) :=
          pow_le_pow_left₀ hρ (chebRate_le_exp ha hab) _
      _ = _ := by
        rw [← Real.exp_nat_mul]
        congr 1
        push_cast
        ring
  have h4 : (‖g‖ * τ) ^ 2 ≤ ‖g‖ ^ 2 * (4 * (M / m) * Real.exp (-(4 * (k + 1) * √(a / b)))) := by
    calc (‖g‖ * τ) ^ 2 ≤ ‖s.r‖ ^ 2 := pow_le_pow_left₀ (by positivity) htgt.le 2
      _ ≤ M * ⟪s.eta - y, H (s.eta - y)⟫_ℝ := h1
      _ ≤ M * (4 * chebRate a b ^ (2 * (k + 1)) * ⟪y, H y⟫_ℝ) := by
        refine mul_le_mul_of_nonneg_left ?_ hM.le
        rw [hgap, hgap0] at hrate
        linarith
      _ ≤ M * (4 * Real.exp (-(4 * (k + 1) * √(a / b))) * (‖g‖ ^ 2 / m)) := by
        have h5 : ⟪y, H y⟫_ℝ ≤ ‖g‖ ^ 2 / m := by
          rw [le_div_iff₀ hm]
          linarith
        have := (hpd y hy0).le
        gcongr
      _ = _ := by ring
  have h5 : (τ * Real.exp (2 * (k + 1) * √(a / b))) ^ 2 ≤ (2 * √(M / m)) ^ 2 := by
    rw [mul_pow, mul_pow, Real.sq_sqrt (by positivity), ← Real.exp_nat_mul]
    rw [mul_pow] at h4
    have h6 := le_of_mul_le_mul_left h4 (by positivity)
    calc τ ^ 2 * Real.exp ((2 : ℕ) * (2 * (k + 1) * √(a / b))) ≤
          4 * (M / m) * Real.exp (-(4 * (k + 1) * √(a / b))) *
            Real.exp ((2 : ℕ) * (2 * (k + 1) * √(a / b))) := by gcongr
      _ = 4 * (M / m) * (Real.exp (-(4 * (k + 1) * √(a / b))) *
            Real.exp (4 * (k + 1) * √(a / b))) := by
          push_cast
          ring_nf
      _ = 2 ^ 2 * (M / m) := by
          rw [← Real.exp_add, neg_add_cancel, Real.exp_zero]
          norm_num
  have h6 : Real.exp (2 * (k + 1) * √(a / b)) ≤ 2 * √(M / m) / τ := by
    rw [le_div_iff₀ hτ0, mul_comm]
    exact (pow_le_pow_iff_left₀ (by positivity) (by positivity) two_ne_zero).1 h5
  have h7 : 2 * (k + 1) * √(a / b) ≤ Real.log (2 * √(M / m) / τ) := by
    rw [Real.le_log_iff_exp_le (by positivity)]
    exact h6
  have h8 : √(b / a) * √(a / b) = 1 := by
    rw [← Real.sqrt_mul (by positivity), div_mul_div_cancel₀ ha.ne', div_self hb.ne', Real.sqrt_one]
  have h9 : (k + 1 : ℝ) ≤ √(b / a) / 2 * Real.log (2 * √(M / m) / τ) := by
    calc (k + 1 : ℝ) = √(b / a) / 2 * (2 * (k + 1) * √(a / b)) := by
          linear_combination (-(k + 1 : ℝ)) * h8
      _ ≤ _ := by gcongr
  have h10 : (o.hessCalls : ℝ) ≤ k + 1 + 1 := by exact_mod_cast hi
  linarith

/-- **C154** (few eigenvalues): a call needs at most as many Hessian products as the preconditioned
Hessian, which need not be positive definite, has different eigenvalues. -/
theorem C154_eigenvalues [FiniteDimensional ℝ V] (hE : ExactAt pb x H) (hW : PreconAt c pb x W)
    (hsym : ∀ u v, ⟪H u, v⟫_ℝ = ⟪u, H v⟫_ℝ) {Λ : Finset ℝ}
    (hΛ : ∀ t v, v ≠ 0 → H v = t • W v → t ∈ Λ)
    (h : tcg c pb x g (pb.M.zeroVector x) Delta mininner maxinner = .ok o) :
    o.hessCalls ≤ Λ.card := by
  have hWi : IsInner fun u v => ⟪W u, v⟫_ℝ :=
    { add_left := fun u v w => by rw [map_add, inner_add_left]
      smul_left := fun a u v => by rw [map_smul, real_inner_smul_left]
      symm := fun u v => by rw [hW.symm, real_inner_comm]
      nonneg := fun u => by rw [hW.symm]; exact hW.nonneg u
      definite := fun u h => by
        by_contra hu
        have := hW.pos u hu
        rw [← hW.symm, h] at this
        exact lt_irrefl _ this }
  set Q : ℝ[X] := ∏ t ∈ Λ, (X - C t) with hQ
  have hQm : Q.Monic := monic_prod_of_monic _ _ fun t _ => monic_X_sub_C t
  have hQd : Q.natDegree = Λ.card := by
    rw [hQ, natDegree_prod_of_monic _ _ fun t _ => monic_X_sub_C t]
    simp
  have hQT : aeval (preconHess H W) Q = 0 := by
    refine hWi.aeval_eq_zero (fun u v => ?_) fun t hc => ?_
    · change ⟪W (W.symm (H u)), v⟫_ℝ = ⟪W u, W.symm (H v)⟫_ℝ
      rw [W.apply_symm_apply, hW.symm, W.apply_symm_apply, hsym]
    · obtain ⟨v, hv⟩ := hc.exists_hasEigenvector
      have hv1 : W.symm (H v) = t • v := hv.apply_eq_smul
      have hv2 : H v = t • W v := by rw [← map_smul, ← hv1, W.apply_symm_apply]
      rw [hQ, eval_prod]
      exact Finset.prod_eq_zero (hΛ t v hv.2 hv2) (by simp)
  have hle : ∀ n, krylovSpace g H W n ≤ krylovSpace g H W Λ.card := by
    intro n
    refine Submodule.span_le.2 ?_
    rintro _ ⟨i, -, rfl⟩
    have e1 : (fun v => W.symm (H v))^[i] (W.symm g) =
        aeval (preconHess H W) (X ^ i %ₘ Q) (W.symm g) := by
      have e2 : aeval (preconHess H W) (X ^ i %ₘ Q) = preconHess H W ^ i := by
        have := congrArg (aeval (preconHess H W)) (modByMonic_add_div (X ^ i : ℝ[X]) Q)
        rw [map_add, map_mul, hQT, zero_mul, add_zero, map_pow, aeval_X] at this
        exact this
      rw [e2, Module.End.pow_apply]
      rfl
    change (fun v => W.symm (H v))^[i] (W.symm g) ∈ krylovSpace g H W Λ.card
    rw [e1]
    rcases Nat.eq_zero_or_pos Λ.card with h0 | h0
    · have hQ1 : Q = 1 := hQm.natDegree_eq_zero.1 (hQd.trans h0)
      rw [hQ1, modByMonic_one, map_zero, LinearMap.zero_apply]
      exact Submodule.zero_mem _
    · refine aeval_mem_krylovSpace ?_
      rw [← hQd]
      refine natDegree_modByMonic_lt _ hQm fun h1 => ?_
      rw [h1, natDegree_one] at hQd
      omega
  have h1 := (tcg_exit hE hW hsym h).1
  have h2 := Submodule.finrank_mono (hle o.hessCalls)
  have h3 : Module.finrank ℝ (krylovSpace g H W Λ.card) ≤ Λ.card := by
    classical
    have e : (Set.Iio Λ.card : Set ℕ) = ↑(Finset.range Λ.card) := by ext; simp
    unfold krylovSpace
    rw [e, ← Finset.coe_image]
    exact (finrank_span_finset_le_card _).trans
      (Finset.card_image_le.trans (by rw [Finset.card_range]))
  omega

/-- The hypotheses are met in the plane by the map with eigenvalues 1 and 2, without
preconditioner. -/
example : PreconSpectrum planeH (LinearEquiv.refl ℝ ℂ) 1 2 ∧
    (∀ v, 1 * ‖v‖ ^ 2 ≤ ⟪v, planeH v⟫_ℝ) ∧ (∀ v, ‖planeH v‖ ^ 2 ≤ 2 * ⟪v, planeH v⟫_ℝ) ∧
    ∀ (t : ℝ) v, v ≠ 0 → planeH v = t • LinearEquiv.refl ℝ ℂ v → t ∈ ({1, 2} : Finset ℝ) := by
  have h1 : ∀ v : ℂ, ⟪v, planeH v⟫_ℝ = 2 * v.re ^ 2 + v.im ^ 2 := fun v => by
    simp [Complex.inner, planeH]
    ring
  have h3 : ∀ v : ℂ, ‖v‖ ^ 2 = v.re ^ 2 + v.im ^ 2 := fun v => by
    rw [Complex.sq_norm, Complex.normSq_apply]
    ring
  have h2 : ∀ v : ℂ, ⟪planeH v, planeH v⟫_ℝ = 4 * v.re ^ 2 + v.im ^ 2 := fun v => by
    rw [real_inner_self_eq_norm_sq, h3]
    simp only [planeH, LinearMap.coe_mk, AddHom.coe_mk]
    ring
  refine ⟨fun v => ?_, fun v => ?_, fun v => ?_, fun t v hv h => ?_⟩
  · rw [LinearEquiv.refl_symm, LinearEquiv.refl_apply, h1, h2]
    constructor <;> nlinarith [sq_nonneg v.re, sq_nonneg v.im]
  · rw [h1, h3]
    nlinarith [sq_nonneg v.re]
  · rw [← real_inner_self_eq_norm_sq, h1, h2]
    nlinarith [sq_nonneg v.im]
  · have e1 := congrArg Complex.re h
    have e2 := congrArg Complex.im h
    simp [planeH] at e1 e2
    by_cases hre : v.re = 0
    · have him : v.im ≠ 0 := fun h0 => hv (Complex.ext hre h0)
      have : t = 1 := (mul_right_cancel₀ him (by linarith)).symm
      simp [this]
    · simp [(e1.resolve_right hre).symm]

end

end Verif.Opt
