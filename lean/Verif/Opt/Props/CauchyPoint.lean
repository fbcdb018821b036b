import Verif.Opt.Props.TCG
namespace Verif.Opt
open PyNum
open scoped InnerProductSpace
variable {P V : Type*} [NormedAddCommGroup V] [InnerProductSpace ℝ V]
section
variable {pb : Prob ℝ P V} {x : P} {H : V →ₗ[ℝ] V} {g : V} {Delta : ℝ} {o : TCGOut V}

theorem quad_neg_smul (g : V) (H : V →ₗ[ℝ] V) (t : ℝ) :
    quad g H (t • g) = t * ‖g‖ ^ 2 + 1 / 2 * (t ^ 2 * ⟪g, H g⟫_ℝ) := by
  simp only [quad, map_smul, real_inner_smul_left, real_inner_smul_right,
    real_inner_self_eq_norm_sq]
  ring

theorem cauchy_min {a h N D : ℝ} (hN : 0 < N) (hD : 0 < D) (ha : 0 ≤ a) (haD : a * N ≤ D)
    {tau : ℝ} (htau : tau = if h ≤ 0 then 1 else min (N ^ 3 / (D * h)) 1) :
    0 ≤ tau ∧ tau ≤ 1 ∧
      (-tau * D / N) * N ^ 2 + 1 / 2 * ((-tau * D / N) ^ 2 * h) ≤
        -a * N ^ 2 + 1 / 2 * ((-a) ^ 2 * h) := by
  obtain ⟨b, hb⟩ : ∃ b, b = tau * D / N := ⟨_, rfl⟩
  have e : -tau * D / N = -b := by rw [hb]; ring
  have hbN : b * N = tau * D := by rw [hb]; field_simp
  rw [e]
  rcases le_or_gt h 0 with hh | hh
  · rw [if_pos hh] at htau
    subst htau
    refine ⟨zero_le_one, le_rfl, ?_⟩
    have hab : a ≤ b := by
      rw [one_mul] at hbN
      exact le_of_mul_le_mul_right (haD.trans_eq hbN.symm) hN
    nlinarith [mul_nonneg (sub_nonneg.2 hab) (sq_nonneg N),
      mul_nonneg (mul_nonneg (sub_nonneg.2 hab) (add_nonneg ha (ha.trans hab))) (neg_nonneg.2 hh)]
  · rw [if_neg (not_le.2 hh)] at htau
    have h0 : 0 ≤ tau := by rw [htau]; positivity
    have h1 : tau ≤ 1 := by rw [htau]; exact min_le_right _ _
    refine ⟨h0, h1, ?_⟩
    have hbh : b * h ≤ N ^ 2 := by
      have : tau * (D * h) ≤ N ^ 3 := by
        rw [← le_div_iff₀ (by positivity), htau]; exact min_le_left _ _
      refine le_of_mul_le_mul_right ?_ hN
      nlinarith
    rcases le_or_gt a b with hab | hab
    · -- below the minimiser the model decreases
      nlinarith [mul_nonneg (sub_nonneg.2 hab) (sub_nonneg.2 hbh),
        mul_nonneg (mul_nonneg (sub_nonneg.2 hab) (sub_nonneg.2 hab)) hh.le]
    · -- otherwise the minimiser is inside the region
      have ht : tau < 1 := by
        by_contra hc
        have : tau = 1 := le_antisymm h1 (not_lt.1 hc)
        rw [this, one_mul] at hbN
        nlinarith
      have hq : tau = N ^ 3 / (D * h) := by
        rw [htau]
        refine min_eq_left (not_lt.1 fun hc => ?_)
        rw [min_eq_right hc.le] at htau
        linarith
      have hbh' : b * h = N ^ 2 := by
        have : tau * (D * h) = N ^ 3 := by rw [hq]; field_simp
        refine mul_right_cancel₀ hN.ne' ?_
        linear_combination h * hbN + this
      nlinarith [mul_nonneg (mul_self_nonneg (a - b)) hh.le]

/-- **C104** (the final choice with `use_rand`) Whatever step the truncated CG solver returned, the
step kept has a model value at most that of the returned step and of every step along the negative
gradient inside the trust region; it does not leave the trust region unless the returned step did. -/
theorem C104_cauchy_point (hE : ExactAt pb x H) (hg : g ≠ 0) (hD : 0 < Delta)
    (hH : o.Heta = H o.eta) (fx : ℝ) :
    ∃ eta, cauchy pb x fx g ‖g‖ Delta o = .ok (eta, H eta) ∧ ‖eta‖ ≤ max ‖o.eta‖ Delta ∧
      quad g H eta ≤ quad g H o.eta ∧
      ∀ t : ℝ, 0 ≤ t → ‖t • -g‖ ≤ Delta → quad g H eta ≤ quad g H (t • -g) := by
  have hN : 0 < ‖g‖ := norm_pos_iff.2 hg
  obtain ⟨tau, htau⟩ : ∃ tau : ℝ, tau =
    if ⟪g, H g⟫_ℝ ≤ 0 then 1 else min (‖g‖ ^ 3 / (Delta * ⟪g, H g⟫_ℝ)) 1 := ⟨_, rfl⟩
  have e : cauchy pb x fx g ‖g‖ Delta o =
      if quad g H ((-tau * Delta / ‖g‖) • g) < quad g H o.eta then
        .ok ((-tau * Delta / ‖g‖) • g, H ((-tau * Delta / ‖g‖) • g)) else .ok (o.eta, H o.eta) := by
    have h1 : (lit 0 : ℝ) = 0 := by simp [PyNum.lit]
    have h2 : (lit 1 : ℝ) = 1 := by simp [PyNum.lit]
    have hp : pow ‖g‖ (lit 3) = ‖g‖ ^ 3 := by
      simp only [PyNum.pow, PyNum.lit]
      norm_num
    have hq : ∀ v : V, fx + ⟪g, v⟫_ℝ + ((1 / 2 : ℚ) : ℝ) * ⟪H v, v⟫_ℝ = fx + quad g H v := by
      intro v
      rw [quad, real_inner_comm v g, real_inner_comm (H v) v]
      push_cast
      ring
    unfold cauchy
    rcases le_or_gt ⟪g, H g⟫_ℝ 0 with hh | hh
    · rw [if_pos hh] at htau
      simp only [hE.hess, hE.inner, h1, h2, PyNum.le, decide_eq_true_eq, if_pos hh, PyNum.div,
        PyNum.mul, PyNum.neg, if_neg hN.ne', hE.smul, PyNum.add, PyNum.lt, ← map_smul, hH,
        show (lit (1 / 2) : ℝ) = ((1 / 2 : ℚ) : ℝ) from rfl, hq, add_lt_add_iff_left, htau]
    · rw [if_neg (not_le.2 hh)] at htau
      have hm : pymin (‖g‖ ^ 3 / (Delta * ⟪g, H g⟫_ℝ)) 1 = tau := by
        rw [htau]
        simp only [pymin, PyNum.lt, decide_eq_true_eq]
        rw [min_comm, min_def_lt]
      simp only [hE.hess, hE.inner, h1, h2, hp, PyNum.le, decide_eq_true_eq, if_neg (not_le.2 hh),
        PyNum.div, PyNum.mul, PyNum.neg, if_neg hN.ne', if_neg (mul_pos hD hh).ne', hm, hE.smul,
        PyNum.add, PyNum.lt, ← map_smul, hH,
        show (lit (1 / 2) : ℝ) = ((1 / 2 : ℚ) : ℝ) from rfl, hq, add_lt_add_iff_left]
  obtain ⟨h0, h1, -⟩ := cauchy_min hN hD le_rfl (by rw [zero_mul]; exact hD.le) htau
  have hc : ∀ t : ℝ, 0 ≤ t → ‖t • -g‖ ≤ Delta →
      quad g H ((-tau * Delta / ‖g‖) • g) ≤ quad g H (t • -g) := by
    intro t ht hb
    rw [norm_smul, norm_neg, Real.norm_of_nonneg ht] at hb
    rw [smul_neg, ← neg_smul, quad_neg_smul, quad_neg_smul]
    exact (cauchy_min hN hD ht hb htau).2.2
  rw [e]
  split
  · rename_i hlt
    refine ⟨_, rfl, le_max_of_le_right ?_, hlt.le, hc⟩
    rw [norm_smul, Real.norm_eq_abs, abs_div, abs_of_pos hN, div_mul_cancel₀ _ hN.ne', abs_mul,
      abs_neg, abs_of_nonneg h0, abs_of_pos hD]
    nlinarith
  · rename_i hlt
    exact ⟨_, rfl, le_max_left _ _, le_rfl, fun t ht hb => (not_lt.1 hlt).trans (hc t ht hb)⟩
end

/-- The hypotheses can be met: from the zero step on `x ^ 2 / 2` at `1`, radius `1 / 2`, the Cauchy
point is taken. -/
example : ∃ eta, cauchy realQuad (1 : ℝ) (1 / 2) (1 : ℝ) ‖(1 : ℝ)‖ (1 / 2)
    ⟨0, 0, 0, .exceededTR, 0⟩ = .ok (eta, eta) ∧ eta = -(1 / 2) := by
  obtain ⟨eta, h, hb, -, hc⟩ := C104_cauchy_point (g := (1 : ℝ)) (Delta := 1 / 2)
    (o := ⟨(0 : ℝ), 0, 0, .exceededTR, 0⟩) realQuad_exact one_ne_zero (by norm_num) (by simp) (1 / 2)
  refine ⟨eta, h, ?_⟩
  have h1 := hc (1 / 2) (by norm_num) (by norm_num)
  have h2 : |eta| ≤ 1 / 2 := by simpa using hb
  simp only [quad, LinearMap.id_apply, real_inner_eq_re_inner, smul_eq_mul] at h1
  simp at h1
  nlinarith [neg_abs_le eta, le_abs_self eta, mul_self_nonneg (eta + 1 / 2)]

end Verif.Opt
