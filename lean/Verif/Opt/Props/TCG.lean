/-
The trust-region subproblem solver: C28 (norm of the step), C29 (model decrease), C30 (inner
iterations).
-/
import Mathlib.Analysis.InnerProductSpace.Basic
import Verif.Opt.Props.TR

namespace Verif.Opt
open PyNum
open scoped InnerProductSpace

variable {P V : Type*} [NormedAddCommGroup V] [InnerProductSpace ℝ V]

/-- Exact arithmetic at the point `x`: `V` is the tangent space there with its inner product,
`to_tangent_space` is the identity on it, and the Hessian at `x` is the linear map `H`. -/
structure ExactAt (pb : Prob ℝ P V) (x : P) (H : V →ₗ[ℝ] V) : Prop where
  inner : ∀ u v, pb.M.inner x u v = ⟪u, v⟫_ℝ
  zero : pb.M.zeroVector x = 0
  toTangent : ∀ v, pb.M.toTangent x v = v
  add : ∀ u v, pb.M.add u v = u + v
  neg : ∀ u, pb.M.neg u = -u
  smul : ∀ (a : ℝ) u, pb.M.smul a u = a • u
  hess : ∀ v, pb.hess x v = H v

/-- The preconditioner used at `x` (the identity with `use_rand`) is the inverse of the symmetric
positive definite map `W`. -/
structure PreconAt (c : TRCfg ℝ) (pb : Prob ℝ P V) (x : P) (W : V ≃ₗ[ℝ] V) : Prop where
  symm : ∀ u v, ⟪W u, v⟫_ℝ = ⟪u, W v⟫_ℝ
  pos : ∀ u, u ≠ 0 → 0 < ⟪u, W u⟫_ℝ
  precon : ∀ v, (if c.useRand then v else pb.precon x v) = W.symm v

/-- The quadratic model. -/
noncomputable def quad (g : V) (H : V →ₗ[ℝ] V) (eta : V) : ℝ := ⟪eta, g⟫_ℝ + 1 / 2 * ⟪eta, H eta⟫_ℝ

/-- Loop invariant; `S` is the span of the previous search directions, `M` a bound on the model. -/
structure TInv (g : V) (H : V →ₗ[ℝ] V) (W : V ≃ₗ[ℝ] V) (Delta M : ℝ)
    (S : Submodule ℝ V) (s : TCGState ℝ V) : Prop where
  Heta : s.Heta = H s.eta
  r : s.r = g + H s.eta
  eta_mem : s.eta ∈ S
  r_perp : ∀ u ∈ S, ⟪u, s.r⟫_ℝ = 0
  conj : ∀ u ∈ S, ⟪u, H s.delta⟫_ℝ = 0
  zr : s.zr = ⟪W.symm s.r, s.r⟫_ℝ
  delta_r : ⟪s.delta, s.r⟫_ℝ = -s.zr
  z_mem : W.symm s.r + s.delta ∈ S
  krylov : ∀ u ∈ S, ∃ c : ℝ, W.symm (H u) - c • s.delta ∈ S
  ePe : s.ePe = ⟪s.eta, W s.eta⟫_ℝ
  dPd : s.dPd = ⟪s.delta, W s.delta⟫_ℝ
  ePd : s.ePd = ⟪s.eta, W s.delta⟫_ℝ
  bound : s.ePe ≤ Delta ^ 2
  model : s.modelValue = quad g H s.eta
  model_le : s.modelValue ≤ M

/-- What is claimed about the returned step. -/
structure TPost (g : V) (H : V →ₗ[ℝ] V) (W : V ≃ₗ[ℝ] V) (Delta M : ℝ) (o : TCGOut V) :
    Prop where
  Heta : o.Heta = H o.eta
  bound : ⟪o.eta, W o.eta⟫_ℝ ≤ Delta ^ 2
  boundary : (o.stop = .negativeCurvature ∨ o.stop = .exceededTR) → ⟪o.eta, W o.eta⟫_ℝ = Delta ^ 2
  model_le : quad g H o.eta ≤ M

section
variable {c : TRCfg ℝ} {pb : Prob ℝ P V} {x : P} {H : V →ₗ[ℝ] V} {W : V ≃ₗ[ℝ] V} {g : V}
  {Delta M normr0 : ℝ} {mininner : ℤ}

theorem quad_add (hsym : ∀ u v, ⟪H u, v⟫_ℝ = ⟪u, H v⟫_ℝ) (eta delta : V) (t : ℝ) :
    quad g H (eta + t • delta) = quad g H eta + t * ⟪delta, g + H eta⟫_ℝ
      + t ^ 2 / 2 * ⟪delta, H delta⟫_ℝ := by
  unfold quad
  simp only [map_add, map_smul, inner_add_left, inner_add_right, real_inner_smul_left,
    real_inner_smul_right]
  have : ⟪eta, H delta⟫_ℝ = ⟪delta, H eta⟫_ℝ := by rw [← hsym, real_inner_comm]
  rw [this]
  ring

theorem normsq_add (hW : PreconAt c pb x W) (eta delta : V) (t : ℝ) :
    ⟪eta + t • delta, W (eta + t • delta)⟫_ℝ = ⟪eta, W eta⟫_ℝ + 2 * t * ⟪eta, W delta⟫_ℝ
      + t ^ 2 * ⟪delta, W delta⟫_ℝ := by
  simp only [map_add, map_smul, inner_add_left, inner_add_right, real_inner_smul_left,
    real_inner_smul_right]
  have : ⟪delta, W eta⟫_ℝ = ⟪eta, W delta⟫_ℝ := by rw [← hW.symm, real_inner_comm]
  rw [this]
  ring

theorem PreconAt.nonneg (hW : PreconAt c pb x W) (u : V) : 0 ≤ ⟪u, W u⟫_ℝ := by
  by_cases h : u = 0
  · simp [h]
  · exact (hW.pos u h).le

theorem PreconAt.symm' (hW : PreconAt c pb x W) (u v : V) :
    ⟪W.symm u, v⟫_ℝ = ⟪u, W.symm v⟫_ℝ := by
  have := hW.symm (W.symm u) (W.symm v)
  simpa using this.symm

/-- The larger root of `d t ^ 2 + 2 b t + e = D`. -/
theorem tau_spec {b d e D : ℝ} (hd : 0 < d) (he : e ≤ D) :
    let tau := (-b + Real.sqrt (b * b + d * (D - e))) / d
    0 ≤ tau ∧ e + 2 * tau * b + tau ^ 2 * d = D ∧
      ∀ a, 0 < a → D ≤ e + 2 * a * b + a ^ 2 * d → tau ≤ a := by
  intro tau
  have hdisc : 0 ≤ d * (D - e) := mul_nonneg hd.le (by linarith)
  have h0 : 0 ≤ b * b + d * (D - e) := add_nonneg (mul_self_nonneg b) hdisc
  set q := Real.sqrt (b * b + d * (D - e)) with hq
  have hq2 : q * q = b * b + d * (D - e) := Real.mul_self_sqrt h0
  have hq0 : 0 ≤ q := Real.sqrt_nonneg _
  have hqb : |b| ≤ q := Real.le_sqrt_of_sq_le (by rw [sq_abs]; nlinarith)
  have ht : tau * d = -b + q := by
    simp only [tau]
    exact div_mul_cancel₀ _ hd.ne'
  have hb := abs_le.1 hqb
  have htau : 0 ≤ tau := div_nonneg (by linarith [le_abs_self b]) hd.le
  refine ⟨htau, ?_, ?_⟩
  · have : (tau * d) * (tau * d) = b * b - 2 * b * q + q * q := by rw [ht]; ring
    have h2 : d * (e + 2 * tau * b + tau ^ 2 * d) = d * D := by
      have : d * (e + 2 * tau * b + tau ^ 2 * d) = d * e + 2 * b * (tau * d) + (tau * d) * (tau * d) := by
        ring
      rw [this, ht]
      linarith [hq2]
    exact mul_left_cancel₀ hd.ne' h2
  · intro a ha hD
    by_contra hlt
    rw [not_le] at hlt
    have h1 : (a * d + b) * (a * d + b) ≥ q * q := by
      have : d * (e + 2 * a * b + a ^ 2 * d) ≥ d * D := mul_le_mul_of_nonneg_left hD hd.le
      nlinarith
    have h2 : a * d < -b + q := by
      rw [← ht]; exact mul_lt_mul_of_pos_right hlt hd
    have h3 : 0 < a * d := mul_pos ha hd
    -- `-q ≤ b < a d + b < q`
    have h4 : a * d + b < q := by linarith
    have h5 : -q < a * d + b := by linarith [hb.1]
    nlinarith

/-- A vanishing residual makes the curvature vanish. -/
theorem TInv.delta_of_zr (hW : PreconAt c pb x W) {S : Submodule ℝ V} {s : TCGState ℝ V}
    (hs : TInv g H W Delta M S s) (h0 : s.zr = 0) : ⟪s.delta, H s.delta⟫_ℝ = 0 := by
  have hz : W.symm s.r = 0 := by
    by_contra hz
    have := hW.pos _ hz
    rw [W.apply_symm_apply, ← hs.zr, h0] at this
    exact lt_irrefl _ this
  have hm := hs.z_mem
  rw [hz, zero_add] at hm
  exact hs.conj _ hm

/-- The state after one step of the conjugate gradient method, as the code computes it in exact
arithmetic. -/
noncomputable def cgNext (g : V) (H : V →ₗ[ℝ] V) (W : V ≃ₗ[ℝ] V) (s : TCGState ℝ V) :
    TCGState ℝ V :=
  let alpha := s.zr / ⟪s.delta, H s.delta⟫_ℝ
  let r' := s.r + alpha • H s.delta
  let beta := ⟪W.symm r', r'⟫_ℝ / s.zr
  ⟨s.eta + alpha • s.delta, s.Heta + alpha • H s.delta, r',
    s.ePe + 2 * alpha * s.ePd + alpha ^ 2 * s.dPd, ⟪W.symm r', r'⟫_ℝ,
    ⟪W.symm r', r'⟫_ℝ + beta * beta * s.dPd, -W.symm r' + beta • s.delta,
    beta * (s.ePd + alpha * s.dPd), quad g H (s.eta + alpha • s.delta)⟩

theorem TInv.next (hW : PreconAt c pb x W) (hsym : ∀ u v, ⟪H u, v⟫_ℝ = ⟪u, H v⟫_ℝ)
    {S : Submodule ℝ V} {s : TCGState ℝ V} {D N : ℝ} (hs : TInv g H W D N S s)
    (hd0 : 0 < ⟪s.delta, H s.delta⟫_ℝ) (hz : s.zr ≠ 0)
    (hex : (cgNext g H W s).ePe ≤ Delta ^ 2) (hm0 : (cgNext g H W s).modelValue ≤ M) :
    TInv g H W Delta M (S ⊔ Submodule.span ℝ {s.delta}) (cgNext g H W s) := by
  set alpha := s.zr / ⟪s.delta, H s.delta⟫_ℝ with halpha
  have hnorm : ⟪s.eta + alpha • s.delta, W (s.eta + alpha • s.delta)⟫_ℝ
      = s.ePe + 2 * alpha * s.ePd + alpha ^ 2 * s.dPd := by
    rw [normsq_add hW, ← hs.ePe, ← hs.ePd, ← hs.dPd]
  have hapos : alpha ≠ 0 := div_ne_zero hz hd0.ne'
  have haH : alpha * ⟪s.delta, H s.delta⟫_ℝ = s.zr := div_mul_cancel₀ _ hd0.ne'
  -- the new residual
  set r' := s.r + alpha • H s.delta with hr'
  have perp : ∀ u ∈ S, ⟪u, r'⟫_ℝ = 0 := by
    intro u hu
    rw [hr', inner_add_right, real_inner_smul_right, hs.r_perp u hu, hs.conj u hu]
    ring
  have perpd : ⟪s.delta, r'⟫_ℝ = 0 := by
    rw [hr', inner_add_right, real_inner_smul_right, hs.delta_r, haH]
    ring
  have hzr : ⟪W.symm s.r, r'⟫_ℝ = 0 := by
    have := perp _ hs.z_mem
    rwa [inner_add_left, perpd, add_zero] at this
  have hWsym : ⟪s.r, W.symm r'⟫_ℝ = 0 := by rw [← hW.symm', hzr]
  set beta := ⟪W.symm r', r'⟫_ℝ / s.zr with hbeta'
  have hbz : beta * s.zr = ⟪W.symm r', r'⟫_ℝ := div_mul_cancel₀ _ hz
  have hr'eta : r' = g + H (s.eta + alpha • s.delta) := by
    rw [hr', hs.r, map_add, map_smul, add_assoc]
  have hHd : alpha • H s.delta = r' - s.r := by rw [hr']; simp
  have hmemS : ∀ u, u ∈ S ⊔ Submodule.span ℝ {s.delta} ↔ ∃ v ∈ S, ∃ a : ℝ, v + a • s.delta = u := by
    intro u
    simp only [Submodule.mem_sup, Submodule.mem_span_singleton]
    constructor
    · rintro ⟨v, hv, w, ⟨a, rfl⟩, rfl⟩
      exact ⟨v, hv, a, rfl⟩
    · rintro ⟨v, hv, a, rfl⟩
      exact ⟨v, hv, _, ⟨a, rfl⟩, rfl⟩
  have perp' : ∀ u ∈ S ⊔ Submodule.span ℝ {s.delta}, ⟪u, r'⟫_ℝ = 0 := by
    intro u hu
    obtain ⟨v, hv, a, rfl⟩ := (hmemS u).1 hu
    rw [inner_add_left, real_inner_smul_left, perp v hv, perpd]
    ring
  have hS : ∀ u ∈ S, u ∈ S ⊔ Submodule.span ℝ {s.delta} := fun u hu => Submodule.mem_sup_left hu
  have hdS : s.delta ∈ S ⊔ Submodule.span ℝ {s.delta} :=
    Submodule.mem_sup_right (Submodule.mem_span_singleton_self _)
  have conj1 : ∀ u ∈ S, ⟪u, H (-W.symm r' + beta • s.delta)⟫_ℝ = 0 := by
    intro u hu
    obtain ⟨k, hk⟩ := hs.krylov u hu
    have h1 : ⟪W.symm (H u), r'⟫_ℝ = 0 := by
      have h2 := perp _ hk
      rw [inner_sub_left, real_inner_smul_left, perpd, mul_zero, sub_zero] at h2
      exact h2
    rw [map_add, map_neg, map_smul, inner_add_right, inner_neg_right, real_inner_smul_right,
      hs.conj u hu, ← hsym, ← hW.symm', h1]
    ring
  have conj2 : ⟪s.delta, H (-W.symm r' + beta • s.delta)⟫_ℝ = 0 := by
    have h1 : alpha * ⟪H s.delta, W.symm r'⟫_ℝ = ⟪W.symm r', r'⟫_ℝ := by
      rw [← real_inner_smul_left, hHd, inner_sub_left, hWsym, sub_zero, real_inner_comm]
    have h2 : alpha * ⟪s.delta, H (-W.symm r' + beta • s.delta)⟫_ℝ = 0 := by
      rw [map_add, map_neg, map_smul, inner_add_right, inner_neg_right, real_inner_smul_right,
        ← hsym s.delta (W.symm r'), mul_add, mul_neg, h1,
        show alpha * (beta * ⟪s.delta, H s.delta⟫_ℝ) = beta * (alpha * ⟪s.delta, H s.delta⟫_ℝ) by
          ring, haH, hbz]
      ring
    exact (mul_eq_zero.1 h2).resolve_left hapos
  change s.ePe + 2 * alpha * s.ePd + alpha ^ 2 * s.dPd ≤ Delta ^ 2 at hex
  change quad g H (s.eta + alpha • s.delta) ≤ M at hm0
  change TInv g H W Delta M _ ⟨s.eta + alpha • s.delta, s.Heta + alpha • H s.delta, r',
    s.ePe + 2 * alpha * s.ePd + alpha ^ 2 * s.dPd, ⟪W.symm r', r'⟫_ℝ,
    ⟪W.symm r', r'⟫_ℝ + beta * beta * s.dPd, -W.symm r' + beta • s.delta,
    beta * (s.ePd + alpha * s.dPd), quad g H (s.eta + alpha • s.delta)⟩
  clear_value r' beta
  refine ⟨?_, hr'eta, ?_, perp', ?_, rfl, ?_, ?_, ?_, ?_, ?_, ?_, ?_, rfl, hm0⟩
  · simp [hs.Heta]
  · exact Submodule.add_mem _ (hS _ hs.eta_mem) (Submodule.smul_mem _ _ hdS)
  · intro u hu
    obtain ⟨v, hv, a, rfl⟩ := (hmemS u).1 hu
    rw [inner_add_left, real_inner_smul_left, conj1 v hv, conj2]
    ring
  · simp only
    rw [inner_add_left, inner_neg_left, real_inner_smul_left, perpd]
    ring
  · simp only
    rw [add_neg_cancel_left]
    exact Submodule.smul_mem _ _ hdS
  · intro u hu
    obtain ⟨v, hv, a, rfl⟩ := (hmemS u).1 hu
    obtain ⟨k, hk⟩ := hs.krylov v hv
    -- `W⁻¹ H delta = (z' - z) / alpha`
    have h1 : W.symm (H s.delta) = alpha⁻¹ • (W.symm r' - W.symm s.r) := by
      rw [← map_sub, ← hHd, map_smul, smul_smul, inv_mul_cancel₀ hapos, one_smul]
    refine ⟨-(a * alpha⁻¹), ?_⟩
    have h2 : W.symm (H (v + a • s.delta)) - -(a * alpha⁻¹) • (-W.symm r' + beta • s.delta)
        = (W.symm (H v) - k • s.delta) + (-(a * alpha⁻¹)) • (W.symm s.r + s.delta)
          + (k + a * alpha⁻¹ + a * alpha⁻¹ * beta) • s.delta := by
      rw [map_add, map_add, map_smul, map_smul, h1]
      module
    simp only
    rw [h2]
    exact Submodule.add_mem _ (Submodule.add_mem _ (hS _ hk)
      (Submodule.smul_mem _ _ (hS _ hs.z_mem))) (Submodule.smul_mem _ _ hdS)
  · exact hnorm.symm
  · simp only [map_add, map_neg, map_smul, LinearEquiv.apply_symm_apply,
      inner_add_left, inner_add_right, inner_neg_left, inner_neg_right, real_inner_smul_left,
      real_inner_smul_right, perpd, hs.dPd]
    rw [← hW.symm (W.symm r'), LinearEquiv.apply_symm_apply, real_inner_comm s.delta r', perpd]
    ring
  · simp only [map_add, map_neg, map_smul, LinearEquiv.apply_symm_apply,
      inner_add_right, inner_neg_right, real_inner_smul_right, hs.ePd, hs.dPd]
    rw [perp' _ (Submodule.add_mem _ (hS _ hs.eta_mem) (Submodule.smul_mem _ _ hdS))]
    simp only [inner_add_left, real_inner_smul_left]
    ring
  · exact hex

theorem tcgBody_inv (hE : ExactAt pb x H) (hW : PreconAt c pb x W)
    (hsym : ∀ u v, ⟪H u, v⟫_ℝ = ⟪u, H v⟫_ℝ)
    {j : ℕ} {S : Submodule ℝ V} {s : TCGState ℝ V} (hs : TInv g H W Delta M S s)
    {r : Ctl (TCGState ℝ V) (TCGOut V)}
    (h : tcgBody c pb x g Delta normr0 mininner j s = .ok r) :
    match r with
    | .next s' => TInv g H W Delta M (S ⊔ Submodule.span ℝ {s.delta}) s'
    | .brk o => TPost g H W Delta M o := by
  have hzr0 : 0 ≤ s.zr := by
    rw [hs.zr]
    have := hW.nonneg (W.symm s.r)
    simpa using this
  have hne : ∀ a : ℝ, ne0 a = true ↔ a ≠ 0 := by
    intro a
    simp only [ne0, PyNum.le, PyNum.lit, Rat.cast_zero, Bool.not_eq_true', Bool.and_eq_false_iff,
      decide_eq_false_iff_not, not_le]
    constructor
    · rintro (h | h)
      · exact h.ne'
      · exact h.ne
    · intro h
      exact (lt_or_gt_of_ne h).symm
  have hdiv : ∀ a b q : ℝ, div a b = .ok q → b ≠ 0 ∧ q = a / b := by
    intro a b q hq
    simp only [PyNum.div] at hq
    split at hq
    · cases hq
    · rename_i hb
      cases hq
      exact ⟨hb, rfl⟩
  have hpow : ∀ a : ℝ, pow a (lit 2) = a ^ 2 := by
    intro a
    simp only [PyNum.pow, PyNum.lit]
    norm_num
  have hdPd : 0 ≤ s.dPd := by rw [hs.dPd]; exact hW.nonneg _
  -- a step to the boundary
  have boundary : ∀ tau : ℝ, div (PyNum.add (PyNum.neg s.ePd) (PyNum.sqrt (PyNum.add
      (mul s.ePd s.ePd) (mul s.dPd (sub (Delta ^ 2) s.ePe))))) s.dPd = .ok tau →
      (⟪s.delta, H s.delta⟫_ℝ ≤ 0 ∨ (0 < ⟪s.delta, H s.delta⟫_ℝ ∧ 0 < s.zr ∧
        Delta ^ 2 ≤ s.ePe + 2 * (s.zr / ⟪s.delta, H s.delta⟫_ℝ) * s.ePd +
          (s.zr / ⟪s.delta, H s.delta⟫_ℝ) ^ 2 * s.dPd)) →
      ⟪s.eta + tau • s.delta, W (s.eta + tau • s.delta)⟫_ℝ = Delta ^ 2 ∧
      quad g H (s.eta + tau • s.delta) ≤ M := by
    intro tau htau hcase
    obtain ⟨hd, rfl⟩ := hdiv _ _ _ htau
    have hd : 0 < s.dPd := lt_of_le_of_ne hdPd (Ne.symm hd)
    obtain ⟨t0, t1, t2⟩ := tau_spec (b := s.ePd) hd hs.bound
    simp only [PyNum.add, PyNum.neg, PyNum.sqrt, PyNum.mul, PyNum.sub]
    generalize (-s.ePd + √(s.ePd * s.ePd + s.dPd * (Delta ^ 2 - s.ePe))) / s.dPd = t at *
    refine ⟨by rw [normsq_add hW, ← hs.ePe, ← hs.ePd, ← hs.dPd]; exact t1, ?_⟩
    rw [quad_add hsym, ← hs.r, hs.delta_r, ← hs.model]
    have hm := hs.model_le
    rcases hcase with h1 | ⟨h1, h2, h3⟩
    · have a1 := mul_nonneg t0 hzr0
      have a2 : t ^ 2 / 2 * ⟪s.delta, H s.delta⟫_ℝ ≤ 0 :=
        mul_nonpos_of_nonneg_of_nonpos (by positivity) h1
      linarith
    · have hle := t2 _ (div_pos h2 h1) h3
      rw [le_div_iff₀ h1] at hle
      have a1 : t * (t * ⟪s.delta, H s.delta⟫_ℝ) ≤ t * s.zr := mul_le_mul_of_nonneg_left hle t0
      have a2 : 0 ≤ t * s.zr := mul_nonneg t0 hzr0
      have a3 : t ^ 2 / 2 * ⟪s.delta, H s.delta⟫_ℝ = t * (t * ⟪s.delta, H s.delta⟫_ℝ) / 2 := by ring
      rw [a3]
      linarith
  unfold tcgBody at h
  simp only [hE.hess, hE.inner, hE.add, hE.smul, hE.neg, hE.toTangent, hW.precon, hpow] at h
  by_cases hd0 : ⟪s.delta, H s.delta⟫_ℝ ≤ 0
  · -- negative curvature
    have hle : PyNum.le ⟪s.delta, H s.delta⟫_ℝ (lit 0) = true := by
      simpa [PyNum.le, PyNum.lit] using hd0
    split at h
    · cases h
    · rw [hle, Bool.true_or, if_pos rfl] at h
      split at h
      · cases h
      · rename_i tau htau
        cases h
        obtain ⟨b1, b2⟩ := boundary tau htau (Or.inl hd0)
        exact ⟨by simp [hs.Heta], b1.le, fun _ => b1, b2⟩
  rw [not_le] at hd0
  have hle : PyNum.le ⟪s.delta, H s.delta⟫_ℝ (lit 0) = false := by
    simpa [PyNum.le, PyNum.lit] using hd0
  have hn0 : ne0 ⟪s.delta, H s.delta⟫_ℝ = true := (hne _).2 hd0.ne'
  have hdok : div s.zr ⟪s.delta, H s.delta⟫_ℝ = .ok (s.zr / ⟪s.delta, H s.delta⟫_ℝ) := by
    simp [PyNum.div, hd0.ne']
  rw [hn0, if_pos rfl, hdok] at h
  simp only [hle, Bool.false_or] at h
  set alpha := s.zr / ⟪s.delta, H s.delta⟫_ℝ with halpha
  have hePe : PyNum.add (PyNum.add s.ePe (mul (mul (lit 2) alpha) s.ePd)) (mul (alpha ^ 2) s.dPd)
      = s.ePe + 2 * alpha * s.ePd + alpha ^ 2 * s.dPd := by
    simp [PyNum.add, PyNum.mul, PyNum.lit]
  rw [hePe] at h
  split at h
  · -- trust region exceeded
    rename_i hex
    simp only [PyNum.le, decide_eq_true_eq] at hex
    split at h
    · cases h
    · rename_i tau htau
      cases h
      have hd1 := (hdiv _ _ _ htau).1
      have hzpos : 0 < s.zr := by
        refine lt_of_le_of_ne hzr0 fun h0 => ?_
        exact hd0.ne' (hs.delta_of_zr hW h0.symm)
      obtain ⟨b1, b2⟩ := boundary tau htau (Or.inr ⟨hd0, hzpos, hex⟩)
      exact ⟨by simp [hs.Heta], b1.le, fun _ => b1, b2⟩
  rename_i hex
  simp only [PyNum.le, decide_eq_true_eq, not_le] at hex
  have hnorm : ⟪s.eta + alpha • s.delta, W (s.eta + alpha • s.delta)⟫_ℝ
      = s.ePe + 2 * alpha * s.ePd + alpha ^ 2 * s.dPd := by
    rw [normsq_add hW, ← hs.ePe, ← hs.ePd, ← hs.dPd]
  have hmodel : modelFun pb x g (s.eta + alpha • s.delta) (s.Heta + alpha • H s.delta)
      = quad g H (s.eta + alpha • s.delta) := by
    simp [modelFun, quad, hE.inner, hs.Heta, PyNum.add, PyNum.mul, PyNum.lit]
  rw [hmodel] at h
  split at h
  · cases h
    refine ⟨hs.Heta, by rw [← hs.ePe]; exact hs.bound, by rintro (⟨⟨⟩⟩ | ⟨⟨⟩⟩), ?_⟩
    rw [← hs.model]; exact hs.model_le
  rename_i hdec
  simp only [PyNum.le, decide_eq_true_eq, not_le] at hdec
  have hm0 : quad g H (s.eta + alpha • s.delta) ≤ M := hdec.le.trans hs.model_le
  split at h
  · cases h
    refine ⟨by simp [hs.Heta], by rw [hnorm]; exact hex.le, ?_, hm0⟩
    split <;> (rintro (h | h) <;> cases h)
  split at h
  · cases h
  rename_i beta hbeta
  cases h
  obtain ⟨hz, rfl⟩ := hdiv _ _ _ hbeta
  refine TInv.next hW hsym hs hd0 hz hex.le hm0

theorem tcgLoop_inv (hE : ExactAt pb x H) (hW : PreconAt c pb x W)
    (hsym : ∀ u v, ⟪H u, v⟫_ℝ = ⟪u, H v⟫_ℝ)
    (n j : ℕ) {s : TCGState ℝ V} (hs : ∃ S, TInv g H W Delta M S s) {o : TCGOut V}
    (h : tcgLoop c pb x g Delta normr0 mininner n j s = .ok o) : TPost g H W Delta M o := by
  induction n generalizing j s with
  | zero =>
    obtain ⟨S, hs⟩ := hs
    cases j with
    | zero => cases h
    | succ j =>
      cases h
      refine ⟨hs.Heta, by rw [← hs.ePe]; exact hs.bound, by rintro (⟨⟨⟩⟩ | ⟨⟨⟩⟩), ?_⟩
      rw [← hs.model]; exact hs.model_le
  | succ n ih =>
    obtain ⟨S, hs⟩ := hs
    unfold tcgLoop at h
    split at h
    · cases h
    · rename_i o' ho
      cases h
      exact tcgBody_inv hE hW hsym hs ho
    · rename_i s' hs'
      exact ih (j + 1) ⟨_, tcgBody_inv hE hW hsym hs hs'⟩ h

theorem tcgInit_exact (hE : ExactAt pb x H) (hW : PreconAt c pb x W) :
    tcgInit c pb x g (pb.M.zeroVector x) = ⟨0, 0, g, 0, ⟪W.symm g, g⟫_ℝ, ⟪W.symm g, g⟫_ℝ,
      -W.symm g, 0, 0⟩ := by
  have := hW.precon g
  unfold tcgInit
  split
  · rename_i h
    rw [h, if_pos rfl] at this
    simp [hE.zero, hE.inner, hE.neg, hE.hess, hE.add, ← this, modelFun, PyNum.add, PyNum.mul]
  · rename_i h
    rw [if_neg h] at this
    simp [hE.zero, hE.inner, hE.neg, this, PyNum.lit]

theorem tinv_init (g : V) (H : V →ₗ[ℝ] V) (W : V ≃ₗ[ℝ] V) (Delta : ℝ) : TInv g H W Delta 0 ⊥
    ⟨0, 0, g, 0, ⟪W.symm g, g⟫_ℝ, ⟪W.symm g, g⟫_ℝ, -W.symm g, 0, 0⟩ := by
  constructor
  all_goals simp [quad, sq_nonneg]

theorem tcg_post (hE : ExactAt pb x H) (hW : PreconAt c pb x W)
    (hsym : ∀ u v, ⟪H u, v⟫_ℝ = ⟪u, H v⟫_ℝ) {maxinner : ℤ} {o : TCGOut V}
    (h : tcg c pb x g (pb.M.zeroVector x) Delta mininner maxinner = .ok o) :
    TPost g H W Delta 0 o := by
  unfold tcg at h
  rw [tcgInit_exact hE hW] at h
  exact tcgLoop_inv hE hW hsym _ 0 ⟨⊥, tinv_init g H W Delta⟩ h

end

section
variable {c : TRCfg ℝ} {pb : Prob ℝ P V} {x : P} {H : V →ₗ[ℝ] V} {W : V ≃ₗ[ℝ] V} {g : V}
  {Delta normr0 : ℝ} {mininner maxinner : ℤ}

/-- The first inner iteration is at least as good as every admissible multiple of the
(preconditioned) steepest descent direction. -/
theorem tcgBody_first (hE : ExactAt pb x H) (hW : PreconAt c pb x W)
    (hsym : ∀ u v, ⟪H u, v⟫_ℝ = ⟪u, H v⟫_ℝ)
    {t : ℝ} (ht : 0 ≤ t) (htD : t ^ 2 * ⟪W.symm g, g⟫_ℝ ≤ Delta ^ 2)
    {r : Ctl (TCGState ℝ V) (TCGOut V)}
    (h : tcgBody c pb x g Delta normr0 mininner 0
      ⟨0, 0, g, 0, ⟪W.symm g, g⟫_ℝ, ⟪W.symm g, g⟫_ℝ, -W.symm g, 0, 0⟩ = .ok r) :
    match r with
    | .next s' => s'.modelValue ≤ quad g H (t • (-W.symm g))
    | .brk o => quad g H o.eta ≤ quad g H (t • (-W.symm g)) := by
  have hdiv : ∀ a b q : ℝ, div a b = .ok q → b ≠ 0 ∧ q = a / b := by
    intro a b q hq
    simp only [PyNum.div] at hq
    split at hq
    · cases hq
    · rename_i hb
      cases hq
      exact ⟨hb, rfl⟩
  have hpow : ∀ a : ℝ, pow a (lit 2) = a ^ 2 := by
    intro a
    simp only [PyNum.pow, PyNum.lit]
    norm_num
  have hz0 : 0 ≤ ⟪W.symm g, g⟫_ℝ := by
    have := hW.nonneg (W.symm g)
    simpa using this
  have hq : ∀ a : ℝ, quad g H (a • -W.symm g) = -a * ⟪W.symm g, g⟫_ℝ
      + a ^ 2 / 2 * ⟪-W.symm g, H (-W.symm g)⟫_ℝ := by
    intro a
    have := quad_add (g := g) hsym 0 (-W.symm g) a
    rw [zero_add] at this
    rw [this, map_zero, add_zero, inner_neg_left]
    simp [quad]
  rw [hq]
  set z := ⟪W.symm g, g⟫_ℝ with hz
  have hle_iff : ∀ a b : ℝ, PyNum.le a b = true ↔ a ≤ b := fun a b => by simp [PyNum.le]
  have hlit0 : (lit 0 : ℝ) = 0 := by simp [PyNum.lit]
  have hsq : ∀ tau, div (PyNum.add (PyNum.neg 0) (PyNum.sqrt (PyNum.add (mul 0 0)
      (mul z (sub (Delta ^ 2) 0))))) z = .ok tau → 0 < z ∧ 0 ≤ tau ∧ t ≤ tau ∧
        tau ^ 2 * z = Delta ^ 2 := by
    intro tau htau
    obtain ⟨hne, rfl⟩ := hdiv _ _ _ htau
    have hzp : 0 < z := lt_of_le_of_ne hz0 (Ne.symm hne)
    obtain ⟨t0, t1, -⟩ := tau_spec (b := 0) (e := 0) hzp (sq_nonneg Delta)
    simp only [PyNum.add, PyNum.neg, PyNum.sqrt, PyNum.mul, PyNum.sub]
    generalize (-0 + √(0 * 0 + z * (Delta ^ 2 - 0))) / z = tau at *
    have h2 : tau ^ 2 * z = Delta ^ 2 := by rw [← t1]; ring
    refine ⟨hzp, t0, ?_, h2⟩
    rw [← h2] at htD
    exact abs_le_of_sq_le_sq' (le_of_mul_le_mul_right htD hzp) t0 |>.2
  unfold tcgBody at h
  simp only [hE.hess, hE.inner, hE.add, hE.smul, hE.neg, hE.toTangent, hW.precon, hpow] at h
  generalize hD : ⟪-W.symm g, H (-W.symm g)⟫_ℝ = D at *
  by_cases hd0 : D ≤ 0
  · have hle : PyNum.le D (lit 0) = true := by rw [hle_iff, hlit0]; exact hd0
    split at h
    · cases h
    · rename_i alpha ePeNew hpre
      rw [hle, Bool.true_or, if_pos rfl] at h
      split at h
      · cases h
      · rename_i tau htau
        cases h
        obtain ⟨hzp, h0, h1, h2⟩ := hsq tau htau
        simp only [zero_add]
        rw [hq]
        have a1 : t ^ 2 ≤ tau ^ 2 := by gcongr
        have a2 : (tau ^ 2 - t ^ 2) * D ≤ 0 :=
          mul_nonpos_of_nonneg_of_nonpos (by linarith) hd0
        have a3 : 0 ≤ (tau - t) * z := mul_nonneg (by linarith) hzp.le
        nlinarith
  rw [not_le] at hd0
  have hle : PyNum.le D (lit 0) = false := by
    by_contra hc
    rw [Bool.not_eq_false, hle_iff, hlit0] at hc
    exact absurd hc (not_le.2 hd0)
  have hn0 : ne0 D = true := by
    unfold ne0
    rw [hle]
    rfl
  have hdok : div z D = .ok (z / D) := by simp [PyNum.div, hd0.ne']
  rw [hn0, if_pos rfl, hdok] at h
  simp only [hle, Bool.false_or] at h
  have hmin : quad g H ((z / D) • -W.symm g) ≤ -t * z + t ^ 2 / 2 * D := by
    rw [hq]
    have h1 : -(z / D) * z + (z / D) ^ 2 / 2 * D = -(z ^ 2 / (2 * D)) := by
      field_simp
      ring
    rw [h1]
    have h2 : -t * z + t ^ 2 / 2 * D + z ^ 2 / (2 * D) = (t * D - z) ^ 2 / (2 * D) := by
      field_simp
      ring
    have h3 : 0 ≤ (t * D - z) ^ 2 / (2 * D) := by positivity
    linarith
  have hmodel : modelFun pb x g (0 + (z / D) • -W.symm g) (0 + (z / D) • H (-W.symm g))
      = quad g H ((z / D) • -W.symm g) := by
    simp only [zero_add]
    rw [← map_smul]
    simp [modelFun, quad, hE.inner, PyNum.add, PyNum.mul, PyNum.lit]
  rw [hmodel] at h
  split at h
  · rename_i hex
    split at h
    · cases h
    · rename_i tau htau
      cases h
      obtain ⟨hzp, h0, h1, h2⟩ := hsq tau htau
      simp only [PyNum.add, PyNum.mul, hle_iff, mul_zero, add_zero, zero_add] at hex
      rw [← h2] at hex
      have hta : tau ≤ z / D :=
        abs_le_of_sq_le_sq' (le_of_mul_le_mul_right hex hzp) (by positivity) |>.2
      rw [le_div_iff₀ hd0] at hta
      simp only [zero_add]
      rw [hq]
      have a1 : t * D ≤ tau * D := mul_le_mul_of_nonneg_right h1 hd0.le
      have a2 : 0 ≤ (tau - t) * (2 * z - (tau * D + t * D)) :=
        mul_nonneg (by linarith) (by linarith)
      nlinarith
  split at h
  · rename_i hinc
    cases h
    rw [hle_iff] at hinc
    have : quad g H (0 : V) = 0 := by simp [quad]
    simp only
    rw [this]
    exact hinc.trans hmin
  split at h
  · cases h
    simp only [zero_add]
    exact hmin
  split at h
  · cases h
  · cases h
    exact hmin

end

section
variable {c : TRCfg ℝ} {pb : Prob ℝ P V} {x : P} {H : V →ₗ[ℝ] V} {g : V} {Delta : ℝ}
  {mininner maxinner : ℤ} {o : TCGOut V}

/-- **C28** In exact arithmetic, with a linear self-adjoint Hessian (of any definiteness), zero
start and no preconditioner, the step returned by the truncated conjugate gradient method has norm
at most `Delta`, and norm `Delta` if it reports negative curvature or an exceeded trust region. -/
theorem C28_step_norm (hE : ExactAt pb x H) (hid : ∀ v, pb.precon x v = v)
    (hsym : ∀ u v, ⟪H u, v⟫_ℝ = ⟪u, H v⟫_ℝ) (hD : 0 ≤ Delta)
    (h : tcg c pb x g (pb.M.zeroVector x) Delta mininner maxinner = .ok o) :
    ‖o.eta‖ ≤ Delta ∧
    ((o.stop = .negativeCurvature ∨ o.stop = .exceededTR) → ‖o.eta‖ = Delta) := by
  have hW : PreconAt c pb x (LinearEquiv.refl ℝ V) :=
    ⟨fun _ _ => rfl, fun u hu => by
      rw [LinearEquiv.refl_apply, real_inner_self_eq_norm_sq]; positivity,
      fun v => by rw [hid, ite_self]; rfl⟩
  have hp := tcg_post hE hW hsym h
  have h1 := hp.bound
  have h2 := hp.boundary
  simp only [LinearEquiv.refl_apply, real_inner_self_eq_norm_sq] at h1 h2
  exact ⟨abs_le_of_sq_le_sq' h1 hD |>.2, fun hs => by
    have := h2 hs
    rwa [sq_eq_sq₀ (norm_nonneg _) hD] at this⟩

/-- **C28** with a preconditioner: if it is the inverse of a symmetric positive definite `W`, the
bound holds for the norm defined by `W`. -/
theorem C28_step_norm_precon (hE : ExactAt pb x H) {W : V ≃ₗ[ℝ] V} (hW : PreconAt c pb x W)
    (hsym : ∀ u v, ⟪H u, v⟫_ℝ = ⟪u, H v⟫_ℝ)
    (h : tcg c pb x g (pb.M.zeroVector x) Delta mininner maxinner = .ok o) :
    ⟪o.eta, W o.eta⟫_ℝ ≤ Delta ^ 2 ∧
    ((o.stop = .negativeCurvature ∨ o.stop = .exceededTR) →
      ⟪o.eta, W o.eta⟫_ℝ = Delta ^ 2) :=
  let hp := tcg_post hE hW hsym h
  ⟨hp.bound, hp.boundary⟩

/-- **C104** The model value of the returned step is at most that of every step
`-t * precon(gradient)`, `t >= 0`, inside the trust region (Cauchy decrease). -/
theorem C104_cauchy_decrease (hE : ExactAt pb x H) {W : V ≃ₗ[ℝ] V} (hW : PreconAt c pb x W)
    (hsym : ∀ u v, ⟪H u, v⟫_ℝ = ⟪u, H v⟫_ℝ)
    (h : tcg c pb x g (pb.M.zeroVector x) Delta mininner maxinner = .ok o)
    (hrand : c.useRand = false) {t : ℝ} (ht : 0 ≤ t)
    (htD : ⟪t • -pb.precon x g, W (t • -pb.precon x g)⟫_ℝ ≤ Delta ^ 2) :
    quad g H o.eta ≤ quad g H (t • -pb.precon x g) := by
  have hpre : pb.precon x g = W.symm g := by
    have := hW.precon g
    rwa [hrand] at this
  rw [hpre] at htD ⊢
  have htD' : t ^ 2 * ⟪W.symm g, g⟫_ℝ ≤ Delta ^ 2 := by
    refine le_of_eq_of_le ?_ htD
    simp only [map_smul, map_neg, LinearEquiv.apply_symm_apply, real_inner_smul_left,
      real_inner_smul_right, inner_neg_left, inner_neg_right]
    ring
  unfold tcg at h
  rw [tcgInit_exact hE hW] at h
  simp only at h
  cases hn : maxinner.toNat with
  | zero => rw [hn] at h; cases h
  | succ n =>
    rw [hn] at h
    unfold tcgLoop at h
    split at h
    · cases h
    · rename_i o' ho
      cases h
      exact tcgBody_first hE hW hsym ht htD' ho
    · rename_i s' hs'
      have h1 := tcgBody_first hE hW hsym ht htD' hs'
      have h2 := tcgBody_inv hE hW hsym (tinv_init g H W Delta) hs'
      exact (tcgLoop_inv hE hW hsym _ _ ⟨_, { h2 with model_le := le_rfl }⟩ h).model_le.trans h1

/-- **C29** With a linear self-adjoint Hessian, zero start and a symmetric positive definite
preconditioner: the second component returned is the Hessian applied to the step, and the model
`<g, eta> + <eta, H eta> / 2` does not exceed its value `0` at the origin. -/
theorem C29_model_decrease (hE : ExactAt pb x H) {W : V ≃ₗ[ℝ] V} (hW : PreconAt c pb x W)
    (hsym : ∀ u v, ⟪H u, v⟫_ℝ = ⟪u, H v⟫_ℝ)
    (h : tcg c pb x g (pb.M.zeroVector x) Delta mininner maxinner = .ok o) :
    o.Heta = H o.eta ∧ ⟪g, o.eta⟫_ℝ + 1 / 2 * ⟪o.eta, H o.eta⟫_ℝ ≤ 0 := by
  have hp := tcg_post hE hW hsym h
  have h2 := hp.model_le
  unfold quad at h2
  rw [real_inner_comm] at h2
  exact ⟨hp.Heta, h2⟩

end

/-! ### C30 -/

section
variable {F P E : Type*} [PyNum F] {c : TRCfg F} {pb : Prob F P E} {x : P} {g eta : E}
  {Delta : F} {mininner maxinner : ℤ}

theorem tcgBody_calls {normr0 : F} {j : ℕ} {s : TCGState F E} {o : TCGOut E}
    (h : tcgBody c pb x g Delta normr0 mininner j s = .ok (.brk o)) :
    o.j = j ∧ o.hessCalls = j + 1 := by
  unfold tcgBody at h
  simp only at h
  split at h
  · cases h
  · split at h
    · split at h
      · cases h
      · cases h; exact ⟨rfl, rfl⟩
    · split at h
      · cases h; exact ⟨rfl, rfl⟩
      · split at h
        · cases h; exact ⟨rfl, rfl⟩
        · split at h
          · cases h
          · cases h

theorem tcgLoop_calls {normr0 : F} (n j : ℕ) {s : TCGState F E} {o : TCGOut E}
    (h : tcgLoop c pb x g Delta normr0 mininner n j s = .ok o) :
    1 ≤ o.hessCalls ∧ o.hessCalls ≤ n + j := by
  induction n generalizing j s with
  | zero =>
    cases j with
    | zero => cases h
    | succ j => cases h; exact ⟨by simp, by simp⟩
  | succ n ih =>
    unfold tcgLoop at h
    split at h
    · cases h
    · rename_i o' ho
      cases h
      have := (tcgBody_calls ho).2
      omega
    · have := ih _ h
      omega

/-- **C30** (bound) The inner loop evaluates the Hessian between once and `maxinner` times. -/
theorem C30_inner_bound {o : TCGOut E}
    (h : tcg c pb x g eta Delta mininner maxinner = .ok o) :
    1 ≤ o.hessCalls ∧ (o.hessCalls : ℤ) ≤ maxinner := by
  have := tcgLoop_calls _ _ h
  omega

/-- **C30** (negative) `maxinner <= 0` raises `UnboundLocalError` for every problem. -/
theorem C30_nonpositive_raises (h : maxinner ≤ 0) :
    tcg c pb x g eta Delta mininner maxinner = .error .unboundLocal := by
  unfold tcg
  rw [Int.toNat_of_nonpos h]
  rfl

/-- In particular on every manifold of dimension zero `TrustRegions.run` with the default `maxinner`
raises. -/
theorem C30_dimension_zero_raises (cfg : Cfg F) (clk : Clock F) (eta0 : ℤ → E) (hdim : pb.M.dim = 0)
    {typicalDist DeltaBar Delta0 : Option F} {D D0 : F}
    (hrad : trRadii 0 typicalDist DeltaBar Delta0 = .ok (D, D0)) (r) :
    TRRuns cfg c pb clk eta0 mininner none typicalDist DeltaBar Delta0 x r ↔
      r = .error .unboundLocal := by
  have hst : trStep cfg c pb clk eta0 mininner ((none : Option ℤ).getD pb.M.dim) D
      (trInit pb x D0) = .error .unboundLocal := by
    unfold trStep
    simp only [Option.getD_none, hdim]
    rw [C30_nonpositive_raises (by simp)]
  have hrun : Runs (trStep cfg c pb clk eta0 mininner ((none : Option ℤ).getD pb.M.dim) D)
      (trInit pb x D0) (.error .unboundLocal) := ⟨1, .err hst⟩
  unfold TRRuns
  rw [hdim, hrad]
  constructor
  · intro h
    rw [hdim] at hrun
    exact h.det hrun
  · rintro rfl
    rw [hdim] at hrun
    exact hrun

end

section
variable {K P E : Type*} [NumField K] {c : TRCfg (Num K)} {pb : Prob (Num K) P E} {x : P} {g eta : E}
  {Delta : Num K} {mininner maxinner : ℤ}

/-- **C30** (what holds) If the manifold's inner product returns numpy scalars, the solver returns
a step for every `maxinner >= 1`, whatever the gradient and Hessian. -/
theorem C30_returns_partial (hnp : ∀ p u v, (pb.M.inner p u v).np = true) (h : 1 ≤ maxinner) :
    ∃ o, tcg c pb x g eta Delta mininner maxinner = .ok o := by
  have hdiv : ∀ a b : Num K, a.np = true → ∃ q, div a b = .ok q := by
    intro a b ha
    simp [PyNum.div, ha]
  have hbody : ∀ normr0 j (s : TCGState (Num K) E), s.zr.np = true →
      ∃ r, tcgBody c pb x g Delta normr0 mininner j s = .ok r ∧
        ∀ s', r = .next s' → s'.zr.np = true := by
    intro normr0 j s hs
    unfold tcgBody
    simp only
    split
    · rename_i e he
      split at he
      · obtain ⟨q, hq⟩ := hdiv s.zr (pb.M.inner x s.delta (pb.hess x s.delta)) hs
        rw [hq] at he
        cases he
      · cases he
    · split
      · split
        · rename_i e he
          obtain ⟨q, hq⟩ := hdiv (add (neg s.ePd) (sqrt (add (mul s.ePd s.ePd)
            (mul s.dPd (sub (pow Delta (lit 2)) s.ePe))))) s.dPd (by simp [PyNum.add, PyNum.sqrt])
          rw [hq] at he
          cases he
        · exact ⟨_, rfl, by rintro s' ⟨⟩⟩
      · split
        · exact ⟨_, rfl, by rintro s' ⟨⟩⟩
        · split
          · exact ⟨_, rfl, by rintro s' ⟨⟩⟩
          · split
            · rename_i e he
              obtain ⟨q, hq⟩ := hdiv _ _ (hnp _ _ _)
              rw [hq] at he
              cases he
            · refine ⟨_, rfl, ?_⟩
              rintro s' ⟨⟩
              exact hnp _ _ _
  have hloop : ∀ normr0 n j (s : TCGState (Num K) E), s.zr.np = true → 1 ≤ n + j →
      ∃ o, tcgLoop c pb x g Delta normr0 mininner n j s = .ok o := by
    intro normr0 n
    induction n with
    | zero =>
      intro j s _ hj
      cases j with
      | zero => simp at hj
      | succ j => exact ⟨_, rfl⟩
    | succ n ih =>
      intro j s hs _
      obtain ⟨r, hr, hn⟩ := hbody normr0 j s hs
      unfold tcgLoop
      rw [hr]
      cases r with
      | brk o => exact ⟨o, rfl⟩
      | next s' => exact ih (j + 1) s' (hn s' rfl) (by omega)
  unfold tcg
  apply hloop
  · unfold tcgInit
    split
    · exact hnp _ _ _
    · exact hnp _ _ _
  · omega

end

/-! ### C102: an exact solution found in the first inner iteration -/

section
variable {c : TRCfg ℝ} {pb : Prob ℝ P V} {x : P} {g : V} {Delta : ℝ} {mininner maxinner : ℤ}

/-- **C102** (negative) With the default `mininner = 1` (or more), a Hessian that is a positive
multiple of the identity and a Newton step strictly inside the trust region, the first inner
iteration finds the exact solution, the test of the residual is skipped, and the second inner
iteration divides zero by zero. -/
theorem C102_exact_solution_lost {lam : ℝ} (hlam : 0 < lam)
    (hE : ExactAt pb x (lam • LinearMap.id)) (hid : ∀ v, pb.precon x v = v)
    (hrand : c.useRand = false) (hg : g ≠ 0) (hin : ‖g‖ < lam * Delta)
    (hmin : 1 ≤ mininner) (hmax : 2 ≤ maxinner) :
    tcg c pb x g (pb.M.zeroVector x) Delta mininner maxinner = .error .zeroDivision := by
  have hW : PreconAt c pb x (LinearEquiv.refl ℝ V) :=
    ⟨fun _ _ => rfl, fun u hu => by
      rw [LinearEquiv.refl_apply, real_inner_self_eq_norm_sq]; positivity,
      fun v => by rw [hid, ite_self]; rfl⟩
  have hpow : ∀ a : ℝ, pow a (lit 2) = a ^ 2 := by
    intro a
    simp only [PyNum.pow, PyNum.lit]
    norm_num
  have hgpos : 0 < ‖g‖ := norm_pos_iff.2 hg
  obtain ⟨n, hn⟩ : ∃ n, maxinner.toNat = n + 2 := ⟨maxinner.toNat - 2, by omega⟩
  unfold tcg
  rw [tcgInit_exact hE hW, hn]
  simp only [LinearEquiv.refl_symm, LinearEquiv.refl_apply]
  -- the first iteration
  have hlg : ⟪-g, lam • -g⟫_ℝ = lam * ‖g‖ ^ 2 := by
    rw [real_inner_smul_right, inner_neg_neg, real_inner_self_eq_norm_sq]
  have hgg : ⟪g, g⟫_ℝ = ‖g‖ ^ 2 := real_inner_self_eq_norm_sq g
  have hal : div (‖g‖ ^ 2) (lam * ‖g‖ ^ 2) = .ok lam⁻¹ := by
    have : lam * ‖g‖ ^ 2 ≠ 0 := by positivity
    simp only [PyNum.div, this, if_false]
    congr 1
    field_simp
  have hne : ne0 (lam * ‖g‖ ^ 2) = true := by
    have : ¬ lam * ‖g‖ ^ 2 ≤ 0 := not_le.2 (by positivity)
    simp [ne0, PyNum.le, PyNum.lit, this]
  have hle : PyNum.le (lam * ‖g‖ ^ 2) (lit 0) = false := by
    have : ¬ lam * ‖g‖ ^ 2 ≤ 0 := not_le.2 (by positivity)
    simp [PyNum.le, PyNum.lit, this]
  have hinside : PyNum.le (Delta ^ 2) (PyNum.add (PyNum.add 0 (mul (mul (lit 2) lam⁻¹) 0))
      (mul (lam⁻¹ ^ 2) (‖g‖ ^ 2))) = false := by
    have h1 : lam⁻¹ ^ 2 * ‖g‖ ^ 2 < Delta ^ 2 := by
      rw [← mul_pow]
      have : lam⁻¹ * ‖g‖ < Delta := by
        rw [inv_mul_lt_iff₀ hlam]; exact hin
      gcongr
    simpa [PyNum.le, PyNum.add, PyNum.mul] using h1
  have hres : g + lam⁻¹ • (lam • -g) = 0 := by
    rw [smul_smul, inv_mul_cancel₀ hlam.ne', one_smul, add_neg_cancel]
  have hmod : modelFun pb x g (0 + lam⁻¹ • -g) (0 + lam⁻¹ • (lam • -g))
      = -(‖g‖ ^ 2 / (2 * lam)) := by
    simp only [zero_add, modelFun, hE.inner, smul_smul, inv_mul_cancel₀ hlam.ne', one_smul,
      real_inner_smul_left, inner_neg_right, inner_neg_left, hgg, PyNum.add, PyNum.mul, PyNum.lit]
    push_cast
    field_simp
    ring
  have hdec : PyNum.le (0 : ℝ) (-(‖g‖ ^ 2 / (2 * lam))) = false := by
    have : ¬ (0 : ℝ) ≤ -(‖g‖ ^ 2 / (2 * lam)) := by
      rw [not_le, neg_lt_zero]; positivity
    simp [PyNum.le, this]
  have hmin' : decide (mininner ≤ ((0 : ℕ) : ℤ)) = false := by
    simp only [decide_eq_false_iff_not, not_le]
    exact_mod_cast hmin
  have hbz : div (0 : ℝ) (‖g‖ ^ 2) = .ok 0 := by
    have : ‖g‖ ^ 2 ≠ 0 := by positivity
    simp [PyNum.div, hg]
  have hbody : ∃ s', tcgBody c pb x g Delta (PyNum.sqrt (pb.M.inner x g g)) mininner 0
      ⟨0, 0, g, 0, ⟪g, g⟫_ℝ, ⟪g, g⟫_ℝ, -g, 0, 0⟩ = .ok (.next s') ∧ s'.delta = 0 ∧ s'.dPd = 0 := by
    unfold tcgBody
    simp only [hE.hess, hE.add, hE.smul, hE.neg, hE.toTangent, hE.inner, hrand, hid, hpow,
      LinearMap.smul_apply, LinearMap.id_apply, hlg, hgg, hne, if_true, hal, hle, Bool.false_or,
      hinside, hmod, hdec, hmin', Bool.false_and, hres, inner_zero_right, hbz, Bool.false_eq_true,
      if_false]
    refine ⟨_, rfl, ?_, ?_⟩
    · simp
    · simp [PyNum.add, PyNum.mul]
  obtain ⟨s', hs', hd, hdp⟩ := hbody
  unfold tcgLoop
  rw [hs']
  simp only
  unfold tcgLoop
  have hn0 : ne0 (0 : ℝ) = false := by simp [ne0, PyNum.le, PyNum.lit]
  have hl0 : PyNum.le (0 : ℝ) (lit 0) = true := by simp [PyNum.le, PyNum.lit]
  have hd0 : ∀ a : ℝ, div a 0 = .error .zeroDivision := by intro a; simp [PyNum.div]
  have hbody2 : ∀ r0, tcgBody c pb x g Delta r0 mininner (0 + 1) s' = .error .zeroDivision := by
    intro r0
    unfold tcgBody
    simp only [hE.hess, hE.inner, hd, hdp, map_zero, inner_zero_right, hn0, Bool.false_eq_true,
      if_false, hl0, Bool.true_or, if_true, hd0]
  rw [hbody2]

end

/-- `Euclidean(2)` (manifolds/euclidean.py:7-61). -/
def planeMfd : Mfd Q (Q × Q) (Q × Q) where
  dim := 2
  norm _ v := sqrt (add (mul v.1 v.1) (mul v.2 v.2))
  inner _ a b := toFloat (add (mul a.1 b.1) (mul a.2 b.2))
  retraction x v := (toNp (add x.1 v.1), toNp (add x.2 v.2))
  transport _ _ v := v
  log x y := (toNp (sub y.1 x.1), toNp (sub y.2 x.2))
  pairMean x y := (toNp (mul (add x.1 y.1) (lit (1 / 2))), toNp (mul (add x.2 y.2) (lit (1 / 2))))
  zeroVector _ := (.npy 0, .npy 0)
  toTangent _ v := v
  add a b := (toNp (add a.1 b.1), toNp (add a.2 b.2))
  sub a b := (toNp (sub a.1 b.1), toNp (sub a.2 b.2))
  neg a := (toNp (neg a.1), toNp (neg a.2))
  smul a v := (toNp (mul a v.1), toNp (mul a v.2))

/-- `f(x) = (a * x[0] ** 2 + b * x[1] ** 2) / 2 + p * x[0] + q * x[1]` -/
def planeQuad (a b p q : ℚ) : Prob Q (Q × Q) (Q × Q) where
  M := planeMfd
  cost x := toNp (add (mul (lit (1 / 2)) (add (mul (lit a) (mul x.1 x.1))
    (mul (lit b) (mul x.2 x.2)))) (add (mul (lit p) x.1) (mul (lit q) x.2)))
  grad x := (toNp (add (mul (lit a) x.1) (lit p)), toNp (add (mul (lit b) x.2) (lit q)))
  hess _ v := (toNp (mul (lit a) v.1), toNp (mul (lit b) v.2))
  precon _ v := v

/-- **C102** (negative, floating point) On `f(x) = ‖x‖² / 2` in the plane the proposal of the first
iteration is NaN, so the iterate does not move although the Newton step is inside the region; with
`mininner = 0` the same iteration reaches the minimiser. -/
theorem C102_first_step_rejected :
    (match trStep defaultCfg defaultTR (planeQuad 1 1 0 0) stillClock (fun _ => (.npy 0, .npy 0))
        1 2 (.py 1) (trInit (planeQuad 1 1 0 0) (.npy (3 / 50), .npy (4 / 50)) (.py (1 / 8))) with
      | .ok (.next t) => t.x = (.npy (3 / 50), .npy (4 / 50)) ∧ t.Delta = .py (1 / 32)
      | _ => False) ∧
    (match trStep defaultCfg defaultTR (planeQuad 1 1 0 0) stillClock (fun _ => (.npy 0, .npy 0))
        0 2 (.py 1) (trInit (planeQuad 1 1 0 0) (.npy (3 / 50), .npy (4 / 50)) (.py (1 / 8))) with
      | .ok (.brk r) => r.1.point = (.npy 0, .npy 0)
      | _ => False) := by
  have h : (match trStep defaultCfg defaultTR (planeQuad 1 1 0 0) stillClock
        (fun _ => (.npy 0, .npy 0)) 1 2 (.py 1)
        (trInit (planeQuad 1 1 0 0) (.npy (3 / 50), .npy (4 / 50)) (.py (1 / 8))) with
      | .ok (.next t) => decide (t.x = (.npy (3 / 50), .npy (4 / 50)) ∧ t.Delta = .py (1 / 32))
      | _ => false) = true := by decide +kernel
  have h' : (match trStep defaultCfg defaultTR (planeQuad 1 1 0 0) stillClock
        (fun _ => (.npy 0, .npy 0)) 0 2 (.py 1)
        (trInit (planeQuad 1 1 0 0) (.npy (3 / 50), .npy (4 / 50)) (.py (1 / 8))) with
      | .ok (.brk r) => decide (r.1.point = (.npy 0, .npy 0))
      | _ => false) = true := by decide +kernel
  constructor
  · split at h
    · rename_i t ht
      exact of_decide_eq_true h
    · cases h
  · split at h'
    · rename_i t ht
      exact of_decide_eq_true h'
    · cases h'

/-- **C103** (negative) With `use_rand` the step can leave the trust region: for the strictly convex
model with Hessian `diag(1, 3)`, gradient `(-3, -3)` and the random start `(1/512, -1/512)` the
solver returns a step longer than `Delta`. -/
theorem C103_use_rand_leaves_region :
    ∃ o, tcg { defaultTR with useRand := true } (planeQuad 1 3 (-3) (-3)) (.npy 0, .npy 0)
        (.npy (-3), .npy (-3)) (.npy (1 / 512), .npy (-1 / 512)) (.py (3162 / 1000)) 1 2 = .ok o ∧
      lt (pow (.py (3162 / 1000)) (lit 2)) (planeMfd.inner (.npy 0, .npy 0) o.eta o.eta) = true ∧
      le (planeMfd.inner (.npy 0, .npy 0) (.npy (1 / 512), .npy (-1 / 512))
        (.npy (1 / 512), .npy (-1 / 512))) (lit (1 / 1000)) = true := by
  have h : (match tcg { defaultTR with useRand := true } (planeQuad 1 3 (-3) (-3)) (.npy 0, .npy 0)
        (.npy (-3), .npy (-3)) (.npy (1 / 512), .npy (-1 / 512)) (.py (3162 / 1000)) 1 2 with
      | .ok o => lt (pow (.py (3162 / 1000)) (lit 2))
          (planeMfd.inner (.npy 0, .npy 0) o.eta o.eta)
      | _ => false) = true := by decide +kernel
  split at h
  · rename_i o ho
    exact ⟨o, ho, h, by decide +kernel⟩
  · cases h

section
variable {c : TRCfg ℝ} {pb : Prob ℝ P V} {x : P} {H : V →ₗ[ℝ] V} {g : V} {Delta : ℝ}
  {mininner maxinner : ℤ} {o : TCGOut V}

/-- **C103** (what holds) With `use_rand` the bound holds for the start zero; whatever the
preconditioner, which is not used then.  Missing: starts other than zero, for which it is false. -/
theorem C103_zero_start_partial (hE : ExactAt pb x H) (hrand : c.useRand = true)
    (hsym : ∀ u v, ⟪H u, v⟫_ℝ = ⟪u, H v⟫_ℝ) (hD : 0 ≤ Delta)
    (h : tcg c pb x g (pb.M.zeroVector x) Delta mininner maxinner = .ok o) : ‖o.eta‖ ≤ Delta := by
  have hW : PreconAt c pb x (LinearEquiv.refl ℝ V) :=
    ⟨fun _ _ => rfl, fun u hu => by
      rw [LinearEquiv.refl_apply, real_inner_self_eq_norm_sq]; positivity,
      fun v => by rw [hrand, if_pos rfl]; rfl⟩
  have h1 := (tcg_post hE hW hsym h).bound
  simp only [LinearEquiv.refl_apply, real_inner_self_eq_norm_sq] at h1
  exact abs_le_of_sq_le_sq' h1 hD |>.2

/-- **C102** (what holds) With `mininner <= 0`, `kappa >= 0` and a Hessian that is a positive multiple
of the identity, the Newton step is returned when it lies strictly inside the trust region.
Missing: the default `mininner = 1`, for which it is false. -/
theorem C102_mininner_zero_partial {lam : ℝ} (hlam : 0 < lam)
    (hE : ExactAt pb x (lam • LinearMap.id)) (hid : ∀ v, pb.precon x v = v)
    (hrand : c.useRand = false) (hk : 0 ≤ c.kappa) (hg : g ≠ 0) (hin : ‖g‖ < lam * Delta)
    (hmin : mininner ≤ 0) (hmax : 1 ≤ maxinner) :
    ∃ o, tcg c pb x g (pb.M.zeroVector x) Delta mininner maxinner = .ok o ∧
      o.eta = -(lam⁻¹ • g) := by
  have hW : PreconAt c pb x (LinearEquiv.refl ℝ V) :=
    ⟨fun _ _ => rfl, fun u hu => by
      rw [LinearEquiv.refl_apply, real_inner_self_eq_norm_sq]; positivity,
      fun v => by rw [hid, ite_self]; rfl⟩
  have hpow : ∀ a : ℝ, pow a (lit 2) = a ^ 2 := by
    intro a
    simp only [PyNum.pow, PyNum.lit]
    norm_num
  have hgpos : 0 < ‖g‖ := norm_pos_iff.2 hg
  obtain ⟨n, hn⟩ : ∃ n, maxinner.toNat = n + 1 := ⟨maxinner.toNat - 1, by omega⟩
  unfold tcg
  rw [tcgInit_exact hE hW, hn]
  simp only [LinearEquiv.refl_symm, LinearEquiv.refl_apply]
  have hlg : ⟪-g, lam • -g⟫_ℝ = lam * ‖g‖ ^ 2 := by
    rw [real_inner_smul_right, inner_neg_neg, real_inner_self_eq_norm_sq]
  have hgg : ⟪g, g⟫_ℝ = ‖g‖ ^ 2 := real_inner_self_eq_norm_sq g
  have hal : div (‖g‖ ^ 2) (lam * ‖g‖ ^ 2) = .ok lam⁻¹ := by
    have : lam * ‖g‖ ^ 2 ≠ 0 := by positivity
    simp only [PyNum.div, this, if_false]
    congr 1
    field_simp
  have hne : ne0 (lam * ‖g‖ ^ 2) = true := by
    have : ¬ lam * ‖g‖ ^ 2 ≤ 0 := not_le.2 (by positivity)
    simp [ne0, PyNum.le, PyNum.lit, this]
  have hle : PyNum.le (lam * ‖g‖ ^ 2) (lit 0) = false := by
    have : ¬ lam * ‖g‖ ^ 2 ≤ 0 := not_le.2 (by positivity)
    simp [PyNum.le, PyNum.lit, this]
  have hinside : PyNum.le (Delta ^ 2) (PyNum.add (PyNum.add 0 (mul (mul (lit 2) lam⁻¹) 0))
      (mul (lam⁻¹ ^ 2) (‖g‖ ^ 2))) = false := by
    have h1 : lam⁻¹ ^ 2 * ‖g‖ ^ 2 < Delta ^ 2 := by
      rw [← mul_pow]
      have : lam⁻¹ * ‖g‖ < Delta := by
        rw [inv_mul_lt_iff₀ hlam]; exact hin
      gcongr
    simpa [PyNum.le, PyNum.add, PyNum.mul] using h1
  have hres : g + lam⁻¹ • (lam • -g) = 0 := by
    rw [smul_smul, inv_mul_cancel₀ hlam.ne', one_smul, add_neg_cancel]
  have hmod : modelFun pb x g (0 + lam⁻¹ • -g) (0 + lam⁻¹ • (lam • -g))
      = -(‖g‖ ^ 2 / (2 * lam)) := by
    simp only [zero_add, modelFun, hE.inner, smul_smul, inv_mul_cancel₀ hlam.ne', one_smul,
      real_inner_smul_left, inner_neg_right, inner_neg_left, hgg, PyNum.add, PyNum.mul, PyNum.lit]
    push_cast
    field_simp
    ring
  have hdec : PyNum.le (0 : ℝ) (-(‖g‖ ^ 2 / (2 * lam))) = false := by
    have : ¬ (0 : ℝ) ≤ -(‖g‖ ^ 2 / (2 * lam)) := by
      rw [not_le, neg_lt_zero]; positivity
    simp [PyNum.le, this]
  have hmin' : decide (mininner ≤ ((0 : ℕ) : ℤ)) = true := by
    simp only [decide_eq_true_eq]
    exact_mod_cast hmin
  have hstop : PyNum.le (PyNum.sqrt (0 : ℝ)) (mul (PyNum.sqrt (‖g‖ ^ 2))
      (pymin (pow (PyNum.sqrt (‖g‖ ^ 2)) c.theta) c.kappa)) = true := by
    have hm : 0 ≤ pymin (pow (PyNum.sqrt (‖g‖ ^ 2)) c.theta) c.kappa := by
      unfold pymin
      split
      · exact hk
      · exact Real.rpow_nonneg (Real.sqrt_nonneg _) _
    have : 0 ≤ PyNum.sqrt (‖g‖ ^ 2) * pymin (pow (PyNum.sqrt (‖g‖ ^ 2)) c.theta) c.kappa :=
      mul_nonneg (Real.sqrt_nonneg _) hm
    simpa [PyNum.le, PyNum.sqrt, PyNum.mul] using this
  unfold tcgLoop tcgBody
  simp only [hE.hess, hE.add, hE.smul, hE.neg, hE.toTangent, hE.inner, hrand, hid, hpow,
    LinearMap.smul_apply, LinearMap.id_apply, hlg, hgg, hne, if_true, hal, hle, Bool.false_or,
    hinside, hmod, hdec, hmin', Bool.true_and, hres, inner_zero_right, Bool.false_eq_true,
    if_false, hstop]
  exact ⟨_, rfl, by simp⟩

end

/-! ### Concrete cases -/

/-- `f(x) = x ** 2 / 2` on the real line -/
noncomputable def realQuad : Prob ℝ ℝ ℝ where
  M := realMfd
  cost x := x ^ 2 / 2
  grad x := x
  hess _ v := v
  precon _ v := v

noncomputable def realTR : TRCfg ℝ :=
  { kappa := 1 / 10, theta := 1, rhoPrime := 1 / 10, useRand := false, rhoRegularization := 1000 }

theorem realQuad_exact : ExactAt realQuad 1 LinearMap.id where
  inner u v := by simp [realQuad, realMfd, mul_comm]
  zero := rfl
  toTangent _ := rfl
  add _ _ := rfl
  neg _ := rfl
  smul _ _ := rfl
  hess _ := rfl

/-- The hypotheses of C28, C29 and C104 can be met, with a step to the boundary. -/
example : ExactAt realQuad 1 LinearMap.id ∧ PreconAt realTR realQuad 1 (LinearEquiv.refl ℝ ℝ) ∧
    (∀ u v : ℝ, ⟪LinearMap.id (R := ℝ) u, v⟫_ℝ = ⟪u, LinearMap.id (R := ℝ) v⟫_ℝ) ∧
    realTR.useRand = false ∧
    ∃ o, tcg realTR realQuad 1 1 (realQuad.M.zeroVector 1) (1 / 2) 1 1 = .ok o ∧
      o.stop = .exceededTR := by
  refine ⟨realQuad_exact, ⟨fun _ _ => rfl, fun u hu => ?_, fun _ => rfl⟩,
    fun _ _ => rfl, rfl, ?_⟩
  · rw [LinearEquiv.refl_apply, real_inner_self_eq_norm_sq]; positivity
  · norm_num [tcg, tcgLoop, tcgBody, tcgInit, realTR, realQuad, realMfd, PyNum.div, PyNum.lit,
      PyNum.le, PyNum.add, PyNum.mul, PyNum.pow, PyNum.neg, PyNum.sub, ne0]

/-- The hypotheses of C102 can be met. -/
example : ExactAt realQuad 1 ((1 : ℝ) • LinearMap.id) ∧ ‖(1 : ℝ)‖ < 1 * (2 : ℝ) := by
  rw [one_smul]
  exact ⟨realQuad_exact, by norm_num⟩

/-- The hypothesis of the partial C30 theorem can be met: `np.tensordot` without conversion. -/
example : ∃ pb : Prob Q (Q × Q) (Q × Q), ∀ p u v, (pb.M.inner p u v).np = true :=
  ⟨{ planeQuad 1 3 0 0 with
      M := { planeMfd with inner := fun _ a b => toNp (add (mul a.1 b.1) (mul a.2 b.2)) } },
    fun _ _ _ => rfl⟩

end Verif.Opt
