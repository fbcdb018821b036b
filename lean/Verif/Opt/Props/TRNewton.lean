/-
C146: near a nondegenerate local minimiser trust regions converges superlinearly: every proposal is
accepted, the radius never shrinks, and the gradient norms decrease with order `1 + theta`.
-/
import Verif.Opt.Props.TRRate
import Verif.Opt.Props.Krylov

namespace Verif.Opt
open PyNum
open scoped InnerProductSpace

variable {P E : Type*}

/-! ## Specification -/

/-- The length of a tangent vector. -/
noncomputable def tlen (pb : Prob ℝ P E) (x : P) (v : E) : ℝ := Real.sqrt (pb.M.inner x v v)

/-- On tangent spaces of dimension `d`, with fewer than `d` inner iterations required and at least
`d` allowed, a step of the subproblem solver that was not cut off at the boundary of the region
solves the Newton equation up to the requested accuracy, and exactly in its own direction. -/
def TCGNewton (pb : Prob ℝ P E) (On : P → Prop) (d : ℕ) : Prop :=
  ∀ (c : TRCfg ℝ) (mininner maxinner : ℤ) (x : P) (Delta : ℝ) (o : TCGOut E), c.useRand = false →
    0 ≤ c.kappa → mininner < d → (d : ℤ) ≤ maxinner → On x →
    tcg c pb x (pb.grad x) (pb.M.zeroVector x) Delta mininner maxinner = .ok o → o.stop.interior →
    pb.M.inner x (pb.grad x) o.eta = -pb.M.inner x o.eta o.Heta ∧
    tlen pb x (pb.M.add (pb.grad x) o.Heta) ≤
      tlen pb x (pb.grad x) * min (tlen pb x (pb.grad x) ^ c.theta) c.kappa

/-- The set `On` of points is a neighbourhood of a nondegenerate minimiser: the Hessian lies between
`mu` and `B`; gradients are at most `delta`; the quadratic model of the cost has an error of third
order and the linear model of the gradient one of second order, both with constant `C`; and steps
that lower the cost do not leave `On`. -/
structure NewtonModel (pb : Prob ℝ P E) (On : P → Prop) (Tan : P → E → Prop) (mu B C delta : ℝ) :
    Prop where
  closed : ∀ x v, On x → Tan x v → tlen pb x v ≤ 2 / mu * tlen pb x (pb.grad x) →
    pb.cost (pb.M.retraction x v) ≤ pb.cost x → On (pb.M.retraction x v)
  tan : ∀ x, On x → Tan x (pb.grad x)
  nonneg : ∀ x v, On x → Tan x v → 0 ≤ pb.M.inner x v v
  cauchy : ∀ x v, On x → Tan x v →
    |pb.M.inner x (pb.grad x) v| ≤ tlen pb x (pb.grad x) * tlen pb x v
  small : ∀ x, On x → tlen pb x (pb.grad x) ≤ delta
  lower : ∀ x v, On x → Tan x v → mu * pb.M.inner x v v ≤ pb.M.inner x v (pb.hess x v)
  upper : ∀ x v, On x → Tan x v → pb.M.inner x v (pb.hess x v) ≤ B * pb.M.inner x v v
  cost : ∀ x v, On x → Tan x v → tlen pb x v ≤ 2 / mu * tlen pb x (pb.grad x) →
    |pb.cost (pb.M.retraction x v) - (pb.cost x + pb.M.inner x (pb.grad x) v +
      1 / 2 * pb.M.inner x v (pb.hess x v))| ≤ C * tlen pb x v ^ 3
  grad : ∀ x v, On x → Tan x v → tlen pb x v ≤ 2 / mu * tlen pb x (pb.grad x) →
    tlen pb (pb.M.retraction x v) (pb.grad (pb.M.retraction x v)) ≤
      tlen pb x (pb.M.add (pb.grad x) (pb.hess x v)) + C * tlen pb x v ^ 2

/-! ## The subproblem solver -/

section
variable {V : Type*} [NormedAddCommGroup V] [InnerProductSpace ℝ V]
variable {c : TRCfg ℝ} {pb : Prob ℝ P E} {x : P} {φ : V → E} {H : V →ₗ[ℝ] V}

/-- The Newton equation at one point. -/
theorem tcg_newton_at [FiniteDimensional ℝ V] (hE : TangentAt pb x φ H fun v => v)
    (hsym : ∀ u v, ⟪H u, v⟫_ℝ = ⟪u, H v⟫_ℝ) (hrand : c.useRand = false) (hk : 0 ≤ c.kappa) {g : V}
    {Delta : ℝ} {mininner maxinner : ℤ} (hmin : mininner < Module.finrank ℝ V)
    (hmax : (Module.finrank ℝ V : ℤ) ≤ maxinner) {o : TCGOut E}
    (h : tcg c pb x (φ g) (pb.M.zeroVector x) Delta mininner maxinner = .ok o)
    (hi : o.stop.interior) :
    pb.M.inner x (φ g) o.eta = -pb.M.inner x o.eta o.Heta ∧
    tlen pb x (pb.M.add (φ g) o.Heta) ≤ tlen pb x (φ g) * min (tlen pb x (φ g) ^ c.theta) c.kappa := by
  rw [tcg_push hE hrand] at h
  rcases ho : tcg c (pullProb (P := P) H fun v => v) x g 0 Delta mininner maxinner with e | o'
  · rw [ho] at h; cases h
  · rw [ho] at h
    obtain rfl : o'.push φ = o := by injection h
    have hP := pullProb_exact (P := P) x H fun v => v
    have hW : PreconAt c (pullProb (P := P) H fun v => v) x (LinearEquiv.refl ℝ V) :=
      ⟨fun _ _ => rfl, fun u hu => by
        rw [LinearEquiv.refl_apply, real_inner_self_eq_norm_sq]; positivity,
        fun v => ite_self _⟩
    have hi' : o'.stop.interior := hi
    have hp := tcg_krylov hP hW hsym ho
    obtain ⟨s1, s2, s3⟩ := C145_stopping_reason hP hW hsym ho
    have hH := (C29_model_decrease hP hW hsym ho).1
    have hlen : ∀ v : V, tlen pb x (φ v) = ‖v‖ := fun v => by
      rw [tlen, hE.inner, real_inner_self_eq_norm_sq, Real.sqrt_sq (norm_nonneg _)]
    change pb.M.inner x (φ g) (φ o'.eta) = -pb.M.inner x (φ o'.eta) (φ o'.Heta) ∧
      tlen pb x (pb.M.add (φ g) (φ o'.Heta)) ≤ _
    rw [hH, hE.add, hE.inner, hE.inner, hlen, hlen]
    refine ⟨?_, (s2 ?_).2⟩
    · have := hp.perp hi' _ hp.mem
      rw [inner_add_right] at this
      rw [real_inner_comm]
      linarith
    · have s3 := s3 hk hmin hmax
      obtain ⟨i1, i2⟩ := hi'
      cases hst : o'.stop <;> simp_all

end

/-! ## One iteration -/

/-- The error of the model is small compared to the decrease it predicts, inside the region. -/
theorem newton_interior {mu B C delta n e h m : ℝ} (hmu : 0 < mu) (hmuB : mu ≤ B) (hC : 0 ≤ C)
    (hd : 64 * C * B * delta < mu ^ 3) (hnd : n ≤ delta) (he : 0 < e)
    (hlow : mu * e ^ 2 ≤ h) (hcs : h ≤ n * e) (hm : -m = h / 2) :
    e ≤ 1 / mu * n ∧ C * e ^ 3 < 3 / 4 * -m := by
  have h1 : mu * e ≤ n := by
    have : (mu * e) * e ≤ n * e := by nlinarith
    exact le_of_mul_le_mul_right this he
  have hB : 0 < B := hmu.trans_le hmuB
  have h2 : 64 * C * n * B < mu ^ 2 * B := by
    have : 64 * C * B * n ≤ 64 * C * B * delta := mul_le_mul_of_nonneg_left hnd (by positivity)
    have : mu ^ 2 * mu ≤ mu ^ 2 * B := mul_le_mul_of_nonneg_left hmuB (by positivity)
    nlinarith
  have h3 : 64 * C * n < mu ^ 2 := lt_of_mul_lt_mul_right h2 hB.le
  have h4 : C * e * mu ≤ C * n := by
    calc C * e * mu = C * (mu * e) := by ring
      _ ≤ C * n := mul_le_mul_of_nonneg_left h1 hC
  have h5 : 64 * (C * e) < mu := by
    have : 64 * (C * e) * mu < mu * mu := by nlinarith
    exact lt_of_mul_lt_mul_right this hmu.le
  refine ⟨by rw [one_div_mul_eq_div, le_div_iff₀ hmu]; linarith, ?_⟩
  have he2 : 0 < e ^ 2 := by positivity
  calc C * e ^ 3 = C * e * e ^ 2 := by ring
    _ < 3 / 8 * mu * e ^ 2 := by
        refine mul_lt_mul_of_pos_right ?_ he2
        nlinarith [mul_nonneg hC he.le]
    _ ≤ 3 / 4 * -m := by rw [hm]; linarith

/-- The error of the model is small compared to the decrease it predicts, on the boundary. -/
theorem newton_boundary {mu B C delta n D m : ℝ} (hmu : 0 < mu) (hmuB : mu ≤ B) (hC : 0 ≤ C)
    (hd : 64 * C * B * delta < mu ^ 3) (hn : 0 < n) (hnd : n ≤ delta) (hD : 0 < D)
    (hDn : D ≤ 2 / mu * n) (hdec : 1 / 2 * n * min D (n / B) ≤ -m) :
    C * D ^ 3 < 1 / 4 * -m := by
  have hB : 0 < B := hmu.trans_le hmuB
  have h1 : 64 * C * B * n < mu ^ 3 :=
    (mul_le_mul_of_nonneg_left hnd (by positivity)).trans_lt hd
  refine lt_of_lt_of_le ?_ (mul_le_mul_of_nonneg_left hdec (by norm_num))
  rcases le_or_gt D (n / B) with hc | hc
  · rw [min_eq_left hc]
    have h2 : D * B ≤ n := (le_div_iff₀ hB).1 hc
    -- `8 C D² < n`
    have h3 : 64 * C * n < mu ^ 2 := by
      have : 64 * C * n * B < mu ^ 2 * B := by
        have : mu ^ 2 * mu ≤ mu ^ 2 * B := mul_le_mul_of_nonneg_left hmuB (by positivity)
        nlinarith
      exact lt_of_mul_lt_mul_right this hB.le
    have h4 : (8 * C * D ^ 2) * B ^ 2 ≤ 8 * C * n ^ 2 := by
      calc (8 * C * D ^ 2) * B ^ 2 = 8 * C * (D * B) ^ 2 := by ring
        _ ≤ 8 * C * n ^ 2 := mul_le_mul_of_nonneg_left (pow_le_pow_left₀ (by positivity) h2 2)
            (by positivity)
    have h5 : 8 * C * n ^ 2 < n * B ^ 2 := by
      have : mu ^ 2 ≤ B ^ 2 := pow_le_pow_left₀ hmu.le hmuB 2
      have : 8 * C * n < B ^ 2 := by nlinarith [mul_nonneg hC hn.le]
      nlinarith
    have h6 : 8 * C * D ^ 2 < n := lt_of_mul_lt_mul_right (h4.trans_lt h5) (by positivity)
    nlinarith
  · rw [min_eq_right hc.le]
    have h2 : D * mu ≤ 2 * n := by
      rw [div_mul_eq_mul_div, le_div_iff₀ hmu] at hDn
      exact hDn
    have h3 : (D * mu) ^ 3 ≤ (2 * n) ^ 3 := pow_le_pow_left₀ (by positivity) h2 3
    have h4 : (8 * C * B * D ^ 3) * mu ^ 3 < n ^ 2 * mu ^ 3 := by
      calc (8 * C * B * D ^ 3) * mu ^ 3 = 8 * C * B * (D * mu) ^ 3 := by ring
        _ ≤ 8 * C * B * (2 * n) ^ 3 := mul_le_mul_of_nonneg_left h3 (by positivity)
        _ = n ^ 2 * (64 * C * B * n) := by ring
        _ < n ^ 2 * mu ^ 3 := mul_lt_mul_of_pos_left h1 (by positivity)
    have h5 : 8 * C * B * D ^ 3 < n ^ 2 := lt_of_mul_lt_mul_right h4 (by positivity)
    have h6 : 1 / 4 * (1 / 2 * n * (n / B)) = n ^ 2 / (8 * B) := by field_simp; norm_num
    rw [h6, lt_div_iff₀ (by positivity)]
    linarith

/-- The length of a step at which the model is negative. -/
theorem newton_length {mu n e gn hh m : ℝ} (hmu : 0 < mu) (hm0 : 0 < -m) (hmm : m = gn + 1 / 2 * hh)
    (hcs : -(n * e) ≤ gn ∧ gn ≤ n * e) (he0 : 0 ≤ e) (hlow : mu * e ^ 2 ≤ hh) :
    0 < e ∧ e ≤ 2 / mu * n := by
  have hepos : 0 < e := by
    refine lt_of_le_of_ne he0 fun h0 => ?_
    subst h0
    have : 0 ≤ m := by
      rw [hmm]
      linarith [hcs.1, hcs.2]
    linarith
  refine ⟨hepos, ?_⟩
  have h5 : 1 / 2 * (mu * e ^ 2) ≤ n * e := by
    rw [hmm] at hm0
    linarith [hcs.1]
  have h7 : e * mu ≤ 2 * n := by
    have : (e * mu) * e ≤ (2 * n) * e := by nlinarith
    exact le_of_mul_le_mul_right this hepos
  rw [div_mul_eq_mul_div, le_div_iff₀ hmu]
  exact h7

/-- A lower bound on the ratio. -/
theorem ratio_lower {f f' m q K rho a : ℝ} (hden : 0 < -m + q) (hq : 0 ≤ q) (ha1 : a < 1)
    (hrho : rho = (f - f' + q) / (-m + q)) (hf : f' ≤ f + m + K) (hK : K < (1 - a) * -m) :
    a < rho := by
  rw [hrho, lt_div_iff₀ hden]
  nlinarith

open Classical in
/-- The radius after a proposal with a ratio above a quarter. -/
theorem trRadius_good {rho DeltaBar Delta D : ℝ} {stop : TCGStop} (hr4 : 1 / 4 < rho)
    (h4 : trRadius rho true stop DeltaBar Delta = .ok D) :
    D = if stop.interior ∨ rho ≤ 3 / 4 then Delta else min (2 * Delta) DeltaBar := by
  unfold trRadius at h4
  have hc1 : (lt rho (lit (1 / 4)) || !true || isnan rho) = false := by
    simp only [PyNum.lt, PyNum.lit, PyNum.isnan, Bool.not_true, Bool.or_false,
      decide_eq_false_iff_not, not_lt]
    norm_num
    linarith
  rw [hc1] at h4
  simp only [Bool.false_eq_true, if_false] at h4
  by_cases hc : stop.interior ∨ rho ≤ 3 / 4
  · rw [if_pos hc]
    rw [if_neg] at h4
    · injection h4 with h4; exact h4.symm
    · simp only [Bool.and_eq_true, PyNum.lt, PyNum.lit, decide_eq_true_eq, Bool.or_eq_true,
        beq_iff_eq, not_and, not_or]
      intro hr
      rcases hc with hc | hc
      · exact hc
      · norm_num at hr; linarith
  · rw [if_neg hc]
    rw [not_or] at hc
    rw [if_pos] at h4
    · injection h4 with h4
      rw [← h4]
      have e : mul (lit 2) Delta = 2 * Delta := by simp [PyNum.mul, PyNum.lit]
      rw [e]
      unfold pymin
      split
      · rename_i hl
        simp only [PyNum.lt, decide_eq_true_eq] at hl
        exact (min_eq_right hl.le).symm
      · rename_i hl
        simp only [PyNum.lt, decide_eq_true_eq, not_lt] at hl
        exact (min_eq_left hl).symm
    · have := hc.2
      have h5 := hc.1
      unfold TCGStop.interior at h5
      simp only [Bool.and_eq_true, PyNum.lt, PyNum.lit, decide_eq_true_eq, Bool.or_eq_true,
        beq_iff_eq]
      refine ⟨by norm_num; linarith, by tauto⟩

/-- The ratio for a model that decreases. -/
theorem trRatio_eq {c : TRCfg ℝ} {pb : Prob ℝ P E} {x : P} {fx f' rho m q : ℝ} {g eta Heta : E}
    {md : Bool} (h3 : trRatio c pb x fx g f' eta Heta = .ok (rho, md))
    (hmm : m = pb.M.inner x g eta + 1 / 2 * pb.M.inner x eta Heta) (hq : q = rhoReg c fx)
    (hden : 0 < -m + q) : rho = (fx - f' + q) / (-m + q) ∧ md = true := by
  unfold trRatio at h3
  have e1 : add (sub (neg (pb.M.inner x g eta))
      (mul (lit (1 / 2)) (pb.M.inner x eta Heta))) (rhoReg c fx) = -m + q := by
    rw [hmm, hq]
    simp only [PyNum.add, PyNum.sub, PyNum.neg, PyNum.mul, PyNum.lit]
    push_cast
    ring
  have e2 : add (sub fx f') (rhoReg c fx) = fx - f' + q := by rw [hq]; rfl
  simp only [e1, e2] at h3
  have e3 : div (fx - f' + q) (-m + q) = .ok ((fx - f' + q) / (-m + q)) := by
    change (if _ = (0 : ℝ) then _ else _) = _
    rw [if_neg hden.ne']
  rw [e3] at h3
  simp only [Except.ok.injEq, Prod.mk.injEq] at h3
  refine ⟨h3.1.symm, ?_⟩
  rw [← h3.2]
  simp only [PyNum.le, PyNum.lit, Rat.cast_zero, decide_eq_true_eq]
  exact hden.le

theorem rhoReg_nonneg {c : TRCfg ℝ} (hreg : 0 ≤ c.rhoRegularization) (fx : ℝ) :
    0 ≤ rhoReg c fx := by
  unfold rhoReg
  simp only [PyNum.mul, PyNum.toNp, PyNum.lit]
  refine mul_nonneg (mul_nonneg ?_ (by norm_num)) hreg
  unfold pymax
  split
  · rename_i h
    simp only [PyNum.lt, decide_eq_true_eq] at h
    refine le_trans ?_ h.le
    norm_num
  · norm_num

section
variable {cfg : Cfg ℝ} {c : TRCfg ℝ} {pb : Prob ℝ P E} {clk : Clock ℝ} {eta0 : ℤ → E}
  {mininner maxinner : ℤ} {DeltaBar mu B C delta : ℝ} {On : P → Prop} {Tan : P → E → Prop} {d : ℕ}

/-- The variables of the loop belong to a point of `On`. -/
structure TRGood (pb : Prob ℝ P E) (On : P → Prop) (DeltaBar : ℝ) (s : TRState ℝ P E) : Prop where
  mem : On s.x
  cost : s.fx = pb.cost s.x
  grad : s.fgradx = pb.grad s.x
  norm : s.normGrad = pb.M.norm s.x (pb.grad s.x)
  pos : 0 < s.Delta
  le : s.Delta ≤ DeltaBar

/-- **C146** (step) What one iteration does in `On` : the proposal is accepted, and lowers the cost
by at least a quarter of the decrease that the model predicts; either the radius stays and the new
gradient norm is at most `n min(n ** theta, kappa) + C / mu² n²`, or the step ended at the boundary,
the radius was at most `2 n / mu`, and it is doubled, up to `Delta_bar`. -/
theorem C146_step (hS : TCGSound pb On Tan) (hN : TCGNewton pb On d)
    (hM : NewtonModel pb On Tan mu B C delta) (hmu : 0 < mu) (hC : 0 ≤ C)
    (hd : 64 * C * B * delta < mu ^ 3) (hrand : c.useRand = false) (hk : 0 ≤ c.kappa)
    (hmin : mininner < d) (hmax : (d : ℤ) ≤ maxinner) (hrho : c.rhoPrime < 1 / 4)
    (hreg : 0 ≤ c.rhoRegularization) {s : TRState ℝ P E} (hs : TRGood pb On DeltaBar s)
    (hn : 0 < tlen pb s.x (pb.grad s.x))
    {r : Ctl (TRState ℝ P E) (Result ℝ P × List (P × ℝ × ℝ))}
    (h : trStep cfg c pb clk eta0 mininner maxinner DeltaBar s = .ok r) :
    ∃ u : TRState ℝ P E, TRGood pb On DeltaBar u ∧ u.iteration = s.iteration + 1 ∧
      s.Delta ≤ u.Delta ∧
      pb.cost u.x ≤ pb.cost s.x - 1 / 8 * tlen pb s.x (pb.grad s.x) *
        min s.Delta (tlen pb s.x (pb.grad s.x) / B) ∧
      (u.Delta = s.Delta ∧ tlen pb u.x (pb.grad u.x) ≤ tlen pb s.x (pb.grad s.x) *
          min (tlen pb s.x (pb.grad s.x) ^ c.theta) c.kappa +
          C / mu ^ 2 * tlen pb s.x (pb.grad s.x) ^ 2 ∨
        s.Delta ≤ 2 / mu * tlen pb s.x (pb.grad s.x) ∧ u.Delta = min (2 * s.Delta) DeltaBar) ∧
      (checkStop cfg clk.start (clk.check1 (s.iteration + 1) 0) (clk.check2 (s.iteration + 1) 0)
          (gradientNorm := u.normGrad) (iteration := s.iteration + 1) = none ∧ r = .next u ∨
        ∃ reason, checkStop cfg clk.start (clk.check1 (s.iteration + 1) 0)
            (clk.check2 (s.iteration + 1) 0) (gradientNorm := u.normGrad)
            (iteration := s.iteration + 1) = some reason ∧
          ∃ res, r = .brk res ∧ res.1.point = u.x ∧ res.1.cost = u.fx ∧
            res.1.iterations = s.iteration + 1 ∧ res.1.stop = reason) := by
  obtain ⟨o, eta, Heta, rho, md, D, h1, h2, h3, h4, h6⟩ := trStep_inv h
  rw [hrand] at h1 h2
  simp only [Bool.false_eq_true, if_false, Except.ok.injEq, Prod.mk.injEq] at h1 h2
  obtain ⟨rfl, rfl⟩ := h2
  rw [hs.grad] at h1 h3
  have hx := hs.mem
  have hf := hs.cost
  have hD := hs.pos
  have hDB := hs.le
  obtain ⟨hTan, hHeta, hle, hbd, hm⟩ := hS c mininner maxinner s.x s.Delta o hrand hx h1
  have hint := hN c mininner maxinner s.x s.Delta o hrand hk hmin hmax hx h1
  have hgT := hM.tan s.x hx
  have hee := hM.nonneg s.x _ hx hTan
  have hcs := hM.cauchy s.x _ hx hTan
  have hsm := hM.small s.x hx
  have hlow := hM.lower s.x _ hx hTan
  have hcost := hM.cost s.x _ hx hTan
  have hgr := hM.grad s.x _ hx hTan
  have hcl := hM.closed s.x _ hx hTan
  rw [← hHeta] at hlow hcost hgr
  have hgg : pb.M.inner s.x (pb.grad s.x) (pb.grad s.x) = tlen pb s.x (pb.grad s.x) ^ 2 :=
    (Real.sq_sqrt (hM.nonneg _ _ hx hgT)).symm
  have he2 : pb.M.inner s.x o.eta o.eta = tlen pb s.x o.eta ^ 2 := (Real.sq_sqrt hee).symm
  have hup := hM.upper s.x _ hx hgT
  have hlo := hM.lower s.x _ hx hgT
  rw [hgg] at hm hup hlo
  rw [he2] at hle hbd hlow
  obtain ⟨n, hnn⟩ : ∃ n, n = tlen pb s.x (pb.grad s.x) := ⟨_, rfl⟩
  obtain ⟨e, hedef⟩ : ∃ e, e = tlen pb s.x o.eta := ⟨_, rfl⟩
  rw [← hnn] at hn hm hup hlo hint hcs hsm hcost hgr hcl ⊢
  rw [← hedef] at hle hbd hlow hcs hcost hgr hcl
  have he0 : 0 ≤ e := by rw [hedef]; exact Real.sqrt_nonneg _
  have hmuB : mu ≤ B := le_of_mul_le_mul_right (hlo.trans hup) (by positivity)
  have hB : 0 < B := hmu.trans_le hmuB
  have hdec := model_decrease hn hD hB hup hm
  have hr0 := rhoReg_nonneg hreg s.fx
  obtain ⟨gn, hgn⟩ : ∃ gn, gn = pb.M.inner s.x (pb.grad s.x) o.eta := ⟨_, rfl⟩
  obtain ⟨hh, hhh⟩ : ∃ hh, hh = pb.M.inner s.x o.eta o.Heta := ⟨_, rfl⟩
  rw [← hgn, ← hhh] at hdec hint hcost
  rw [← hgn] at hcs
  rw [← hhh] at hlow
  obtain ⟨m, hmm⟩ : ∃ m, m = gn + 1 / 2 * hh := ⟨_, rfl⟩
  rw [← hmm] at hdec
  obtain ⟨q, hq⟩ : ∃ q, q = rhoReg c s.fx := ⟨_, rfl⟩
  rw [← hq] at hr0
  obtain ⟨f', hf'⟩ : ∃ f', f' = pb.cost (pb.M.retraction s.x o.eta) := ⟨_, rfl⟩
  rw [← hf'] at hcost hcl
  have hnu : 0 < 1 / 2 * n * min s.Delta (n / B) :=
    mul_pos (by positivity) (lt_min hD (by positivity))
  have hm0 : 0 < -m := hnu.trans_le hdec
  have hden : 0 < -m + q := by linarith
  have hcs' := abs_le.1 hcs
  obtain ⟨hepos, helen⟩ := newton_length hmu hm0 hmm hcs' he0 hlow
  have hcost := abs_le.1 (hcost helen)
  have hfm : f' ≤ pb.cost s.x + m + C * e ^ 3 := by rw [hmm]; linarith [hcost.2]
  have hratio := trRatio_eq (m := m) (q := q) h3 (by rw [hmm, hgn, hhh]) hq hden
  rw [← hf', hf] at hratio
  obtain ⟨hrhoe, rfl⟩ := hratio
  -- the two cases
  have hcase : C * e ^ 3 ≤ 3 / 4 * -m ∧ 1 / 4 < rho ∧
      (o.stop.interior ∧ e ≤ 1 / mu * n ∨
      ¬ o.stop.interior ∧ s.Delta ≤ 2 / mu * n ∧ 3 / 4 < rho) := by
    by_cases hi : o.stop.interior
    · obtain ⟨i1, -⟩ := hint hi
      obtain ⟨k1, k2⟩ := newton_interior hmu hmuB hC hd hsm hepos hlow
        (by linarith [hcs'.1]) (by rw [hmm, i1]; ring : -m = hh / 2)
      refine ⟨k2.le, ?_, Or.inl ⟨hi, k1⟩⟩
      exact ratio_lower hden hr0 (by norm_num) hrhoe hfm (by linarith)
    · have hst : o.stop = .negativeCurvature ∨ o.stop = .exceededTR := by
        unfold TCGStop.interior at hi
        tauto
      have heD : e = s.Delta := by
        have := hbd hst
        exact (pow_left_inj₀ he0 hD.le two_ne_zero).1 this
      have k2 := newton_boundary hmu hmuB hC hd hn hsm hD (heD ▸ helen) hdec
      rw [← heD] at k2
      have hr34 : 3 / 4 < rho :=
        ratio_lower hden hr0 (by norm_num) hrhoe hfm (by linarith)
      exact ⟨by linarith, by linarith, Or.inr ⟨hi, heD ▸ helen, hr34⟩⟩
  obtain ⟨hCe, hr4, hcase⟩ := hcase
  have hacc : trAccept c rho true = true := by
    simp only [trAccept, PyNum.lt, Bool.true_and, decide_eq_true_eq]
    linarith
  have hlow' : f' ≤ pb.cost s.x := by linarith
  have hrad := trRadius_good hr4 h4
  have hDle : s.Delta ≤ D ∧ D ≤ DeltaBar := by
    rw [hrad]
    split
    · exact ⟨le_rfl, hDB⟩
    · exact ⟨le_min (by linarith) hDB, min_le_right _ _⟩
  rw [hacc] at h6
  have hgood : TRGood pb On DeltaBar (trAfter pb s true o.eta D) := by
    simp only [trAfter, if_true]
    exact ⟨hcl helen hlow', rfl, rfl, rfl, hD.trans_le hDle.1, hDle.2⟩
  refine ⟨trAfter pb s true o.eta D, hgood, rfl, hDle.1, ?_, ?_, ?_⟩
  · change pb.cost (pb.M.retraction s.x o.eta) ≤ _
    rw [← hf']
    linarith
  · change (D = s.Delta ∧ tlen pb (pb.M.retraction s.x o.eta)
      (pb.grad (pb.M.retraction s.x o.eta)) ≤ _) ∨ _ ∧ D = _
    rcases hcase with ⟨hi, k1⟩ | ⟨hi, k1, k2⟩
    · left
      refine ⟨by rw [hrad, if_pos (Or.inl hi)], (hgr helen).trans (add_le_add (hint hi).2 ?_)⟩
      have h7 : e ^ 2 ≤ (1 / mu * n) ^ 2 := pow_le_pow_left₀ he0 k1 2
      calc C * e ^ 2 ≤ C * (1 / mu * n) ^ 2 := mul_le_mul_of_nonneg_left h7 hC
        _ = C / mu ^ 2 * n ^ 2 := by field_simp
    · right
      exact ⟨k1, by rw [hrad, if_neg (by rw [not_or]; exact ⟨hi, not_le.2 k2⟩)]⟩
  · rcases h6 with h6 | ⟨reason, h6, h7⟩
    · exact Or.inl h6
    · exact Or.inr ⟨reason, h6, _, h7, rfl, rfl, rfl, rfl⟩

/-! ## Runs -/

/-- The bound of one step as a power. -/
theorem superlinear_num {n n' C mu theta kappa tau A : ℝ} (hC : 0 ≤ C) (hA : A = 1 + C / mu ^ 2)
    (ht0 : 0 < tau) (ht1 : tau ≤ 1) (htt : tau ≤ theta) (hn : 0 < n) (hn' : 0 ≤ n')
    (hu : A * n ^ tau ≤ 1) (h : n' ≤ n * min (n ^ theta) kappa + C / mu ^ 2 * n ^ 2) :
    n' ≤ n ∧ A * n' ^ tau ≤ (A * n ^ tau) ^ (1 + tau) := by
  have hq : 0 ≤ C / mu ^ 2 := by positivity
  have hA1 : 1 ≤ A := by rw [hA]; linarith
  have hp : 0 < n ^ tau := Real.rpow_pos_of_pos hn _
  have hn1 : n ≤ 1 := by
    by_contra hc
    have := Real.one_lt_rpow (not_le.1 hc) ht0
    nlinarith
  have h1 : n ^ theta ≤ n ^ tau := Real.rpow_le_rpow_of_exponent_ge hn hn1 htt
  have h2 : n ≤ n ^ tau := by
    have := Real.rpow_le_rpow_of_exponent_ge hn hn1 ht1
    rwa [Real.rpow_one] at this
  have h3 : n' ≤ A * n ^ tau * n := by
    refine h.trans ?_
    have h4 : n * min (n ^ theta) kappa ≤ n * n ^ tau :=
      mul_le_mul_of_nonneg_left ((min_le_left _ _).trans h1) hn.le
    have h5 : C / mu ^ 2 * n ^ 2 ≤ C / mu ^ 2 * (n ^ tau * n) := by
      refine mul_le_mul_of_nonneg_left ?_ hq
      rw [sq]
      exact mul_le_mul_of_nonneg_right h2 hn.le
    rw [hA]
    linarith
  have hu0 : 0 < A * n ^ tau := by positivity
  refine ⟨h3.trans (mul_le_of_le_one_left hn.le hu), ?_⟩
  calc A * n' ^ tau ≤ A * (A * n ^ tau * n) ^ tau :=
        mul_le_mul_of_nonneg_left (Real.rpow_le_rpow hn' h3 ht0.le) (by linarith)
    _ = (A * n ^ tau) ^ (1 + tau) := by
        rw [Real.mul_rpow hu0.le hn.le, Real.rpow_add hu0, Real.rpow_one]
        ring

/-- One more step in the tower of powers. -/
theorem superlinear_pow {u u' v tau : ℝ} {k : ℕ} (ht0 : 0 < tau) (hu0 : 0 ≤ u) (hv : 0 ≤ v)
    (h : u ≤ v ^ ((1 + tau) ^ k)) (h' : u' ≤ u ^ (1 + tau)) : u' ≤ v ^ ((1 + tau) ^ (k + 1)) := by
  refine h'.trans ((Real.rpow_le_rpow hu0 h (by linarith)).trans ?_)
  rw [← Real.rpow_mul hv, pow_succ]

/-- The loop goes on only while the gradient norm is at least the threshold. -/
theorem checkStop_none {start now1 now2 g : ℝ} {it : ℤ}
    (h : checkStop cfg start now1 now2 (gradientNorm := g) (iteration := it) = none) :
    cfg.minGradientNorm ≤ g := by
  unfold checkStop at h
  simp only at h
  split at h
  · cases h
  split at h
  · cases h
  split at h
  · cases h
  rename_i hlt
  simpa [PyNum.lt] using hlt

/-- **C146** (order) From a state with radius above `2 n / mu` and gradient norm `n` with
`A n ** tau ≤ 1`, where `A = 1 + C / mu²` and `tau = min(theta, 1)` or less: the radius stays what
it is, the gradient norms do not increase, and after `k` iterations the gradient norm `n'`
satisfies `A n' ** tau ≤ (A n ** tau) ** ((1 + tau) ** k)`.  For `theta ≥ 1` the convergence is
quadratic. -/
theorem C146_order (hS : TCGSound pb On Tan) (hN : TCGNewton pb On d)
    (hM : NewtonModel pb On Tan mu B C delta) (hmu : 0 < mu) (hC : 0 ≤ C)
    (hd : 64 * C * B * delta < mu ^ 3) (hrand : c.useRand = false) (hk : 0 ≤ c.kappa)
    (hmin : mininner < d) (hmax : (d : ℤ) ≤ maxinner) (hrho : c.rhoPrime < 1 / 4)
    (hreg : 0 ≤ c.rhoRegularization) (hcfg : 0 < cfg.minGradientNorm)
    (hnorm : ∀ y, On y → pb.M.norm y (pb.grad y) = tlen pb y (pb.grad y)) {tau A : ℝ}
    (hA : A = 1 + C / mu ^ 2) (ht0 : 0 < tau) (ht1 : tau ≤ 1) (htt : tau ≤ c.theta)
    {s : TRState ℝ P E} (hs : TRGood pb On DeltaBar s) (hn : 0 < tlen pb s.x (pb.grad s.x))
    (hD : 2 / mu * tlen pb s.x (pb.grad s.x) < s.Delta)
    (hu : A * tlen pb s.x (pb.grad s.x) ^ tau ≤ 1) :
    (∀ t, Reaches (trStep cfg c pb clk eta0 mininner maxinner DeltaBar) s t →
      On t.x ∧ t.Delta = s.Delta ∧ tlen pb t.x (pb.grad t.x) ≤ tlen pb s.x (pb.grad s.x) ∧
      ∃ k : ℕ, t.iteration = s.iteration + k ∧ A * tlen pb t.x (pb.grad t.x) ^ tau ≤
        (A * tlen pb s.x (pb.grad s.x) ^ tau) ^ ((1 + tau) ^ k)) ∧
    ∀ res, Runs (trStep cfg c pb clk eta0 mininner maxinner DeltaBar) s (.ok res) →
      On res.1.point ∧
      ∃ k : ℕ, res.1.iterations = s.iteration + k ∧ A * tlen pb res.1.point (pb.grad res.1.point) ^ tau
        ≤ (A * tlen pb s.x (pb.grad s.x) ^ tau) ^ ((1 + tau) ^ k) := by
  have hA0 : 0 < A := by
    have : 0 ≤ C / mu ^ 2 := by positivity
    linarith
  obtain ⟨n0, hn0⟩ : ∃ n0, n0 = tlen pb s.x (pb.grad s.x) := ⟨_, rfl⟩
  rw [← hn0] at hn hD hu
  simp only [← hn0]
  let Inv : TRState ℝ P E → Prop := fun t => TRGood pb On DeltaBar t ∧
    0 < tlen pb t.x (pb.grad t.x) ∧ t.Delta = s.Delta ∧ tlen pb t.x (pb.grad t.x) ≤ n0 ∧
    ∃ k : ℕ, t.iteration = s.iteration + k ∧
      A * tlen pb t.x (pb.grad t.x) ^ tau ≤ (A * n0 ^ tau) ^ ((1 + tau) ^ k)
  have hv0 : 0 < A * n0 ^ tau := mul_pos hA0 (Real.rpow_pos_of_pos hn _)
  have hstep : ∀ t r, Inv t → trStep cfg c pb clk eta0 mininner maxinner DeltaBar t = .ok r →
      (∀ t', r = .next t' → Inv t') ∧ ∀ res, r = .brk res → On res.1.point ∧
        ∃ k : ℕ, res.1.iterations = s.iteration + k ∧
          A * tlen pb res.1.point (pb.grad res.1.point) ^ tau ≤
            (A * n0 ^ tau) ^ ((1 + tau) ^ k) := by
    rintro t r ⟨i1, i2, i3, i4, k, i5, i6⟩ hr
    obtain ⟨u, u1, u2, -, -, u5, u6⟩ := C146_step hS hN hM hmu hC hd hrand hk hmin hmax hrho hreg i1
      i2 hr
    have hw : A * tlen pb t.x (pb.grad t.x) ^ tau ≤ 1 :=
      (mul_le_mul_of_nonneg_left (Real.rpow_le_rpow i2.le i4 ht0.le) hA0.le).trans hu
    rcases u5 with ⟨v1, v2⟩ | ⟨v1, -⟩
    swap
    · exfalso
      have := mul_le_mul_of_nonneg_left i4 (div_pos two_pos hmu).le
      rw [i3] at v1
      linarith
    obtain ⟨w1, w2⟩ := superlinear_num hC hA ht0 ht1 htt i2 (Real.sqrt_nonneg _) hw v2
    have hpow := superlinear_pow ht0 (mul_pos hA0 (Real.rpow_pos_of_pos i2 _)).le hv0.le i6 w2
    constructor
    · rintro t' rfl
      rcases u6 with ⟨hc, he⟩ | ⟨_, _, res, he, -⟩
      · obtain rfl : t' = u := by injection he
        have hge := checkStop_none hc
        rw [u1.norm, hnorm _ u1.mem] at hge
        exact ⟨u1, hcfg.trans_le hge, v1.trans i3, w1.trans i4, k + 1,
          by rw [u2, i5]; push_cast; ring, hpow⟩
      · cases he
    · rintro res rfl
      rcases u6 with ⟨hc, he⟩ | ⟨_, _, res', he, p1, -, p3, -⟩
      · cases he
      · obtain rfl : res = res' := by injection he
        rw [p1]
        exact ⟨u1.mem, k + 1, by rw [p3, i5]; push_cast; ring, hpow⟩
  have h0 : Inv s := ⟨hs, hn0 ▸ hn, rfl, hn0.ge, 0, by simp, by rw [← hn0]; simp⟩
  refine ⟨fun t ht => ?_, fun res hres => ?_⟩
  · obtain ⟨i1, i2, i3, i4, i5⟩ := Reaches.invariant Inv
      (fun t t' h h' => (hstep t _ h h').1 t' rfl) ht h0
    exact ⟨i1.mem, i3, i4, i5⟩
  · exact hres.invariant (Inv := Inv) (Post := fun res => On res.1.point ∧
      ∃ k : ℕ, res.1.iterations = s.iteration + k ∧
        A * tlen pb res.1.point (pb.grad res.1.point) ^ tau ≤ (A * n0 ^ tau) ^ ((1 + tau) ^ k))
      (fun t t' h h' => (hstep t _ h h').1 t' rfl) (fun t res h h' => (hstep t _ h h').2 res rfl) h0

/-- The result of a run from a point of `On` is a point of `On`. -/
theorem C146_mem (hS : TCGSound pb On Tan) (hN : TCGNewton pb On d)
    (hM : NewtonModel pb On Tan mu B C delta) (hmu : 0 < mu) (hC : 0 ≤ C)
    (hd : 64 * C * B * delta < mu ^ 3) (hrand : c.useRand = false) (hk : 0 ≤ c.kappa)
    (hmin : mininner < d) (hmax : (d : ℤ) ≤ maxinner) (hrho : c.rhoPrime < 1 / 4)
    (hreg : 0 ≤ c.rhoRegularization) (hcfg : 0 < cfg.minGradientNorm)
    (hnorm : ∀ y, On y → pb.M.norm y (pb.grad y) = tlen pb y (pb.grad y)) {x : P} {Delta0 : ℝ}
    (hx : On x) (hD0 : 0 < Delta0) (hDB : Delta0 ≤ DeltaBar) (hn : 0 < tlen pb x (pb.grad x))
    {res : Result ℝ P × List (P × ℝ × ℝ)}
    (hres : Runs (trStep cfg c pb clk eta0 mininner maxinner DeltaBar) (trInit pb x Delta0)
      (.ok res)) : On res.1.point := by
  refine hres.invariant
    (Inv := fun t => TRGood pb On DeltaBar t ∧ 0 < tlen pb t.x (pb.grad t.x))
    (Post := fun res => On res.1.point) (fun t t' ht hr => ?_) (fun t res ht hr => ?_)
    ⟨⟨hx, rfl, rfl, rfl, hD0, hDB⟩, hn⟩
  · obtain ⟨u, u1, -, -, -, -, ⟨hc, he⟩ | ⟨_, _, res, he, -⟩⟩ := C146_step hS hN hM hmu hC hd hrand
      hk hmin hmax hrho hreg ht.1 ht.2 hr
    · obtain rfl : t' = u := by injection he
      have hge := checkStop_none hc
      rw [u1.norm, hnorm _ u1.mem] at hge
      exact ⟨u1, hcfg.trans_le hge⟩
    · cases he
  · obtain ⟨u, u1, -, -, -, -, ⟨_, he⟩ | ⟨_, _, res', he, p1, -⟩⟩ := C146_step hS hN hM hmu hC hd
      hrand hk hmin hmax hrho hreg ht.1 ht.2 hr
    · cases he
    · obtain rfl : res = res' := by injection he
      rw [p1]
      exact u1.mem

/-- **C146** (iterations) From any point of `On` and any initial radius, with a minimal gradient norm
`ε`: at most `8 (f₀ - fmin) / (nₛ min(Delta0, nₛ / B))` iterations before the gradient norm is below
`nₛ`, where `nₛ ≤ mu Delta0 / 2` and `A nₛ ** tau < 1`, and then at most
`log (log (A ε ** tau) / log (A nₛ ** tau))` more, with the logarithm to base `1 + tau`. -/
theorem C146_iterations (hS : TCGSound pb On Tan) (hN : TCGNewton pb On d)
    (hM : NewtonModel pb On Tan mu B C delta) (hmu : 0 < mu) (hmuB : mu ≤ B) (hC : 0 ≤ C)
    (hd : 64 * C * B * delta < mu ^ 3) (hrand : c.useRand = false) (hk : 0 ≤ c.kappa)
    (hmin : mininner < d) (hmax : (d : ℤ) ≤ maxinner) (hrho : c.rhoPrime < 1 / 4)
    (hreg : 0 ≤ c.rhoRegularization) {ε : ℝ} (hε : 0 < ε) (hcfg : cfg.minGradientNorm = ε)
    (hnorm : ∀ y, On y → pb.M.norm y (pb.grad y) = tlen pb y (pb.grad y)) {tau A : ℝ}
    (hA : A = 1 + C / mu ^ 2) (ht0 : 0 < tau) (ht1 : tau ≤ 1) (htt : tau ≤ c.theta)
    {x : P} {Delta0 fmin ns : ℝ} (hx : On x) (hD0 : 0 < Delta0) (hDB : Delta0 ≤ DeltaBar)
    (hfmin : ∀ y, On y → fmin ≤ pb.cost y) (hx0 : ε ≤ tlen pb x (pb.grad x)) (hns : ε ≤ ns)
    (hnsD : 2 / mu * ns ≤ Delta0) (hnsA : A * ns ^ tau < 1) :
    (∀ t, Reaches (trStep cfg c pb clk eta0 mininner maxinner DeltaBar) (trInit pb x Delta0) t →
      Delta0 ≤ t.Delta ∧ (t.iteration : ℝ) ≤ 8 * (pb.cost x - fmin) / (ns * min Delta0 (ns / B)) +
        Real.logb (1 + tau) (Real.log (A * ε ^ tau) / Real.log (A * ns ^ tau))) ∧
    ∀ res, Runs (trStep cfg c pb clk eta0 mininner maxinner DeltaBar) (trInit pb x Delta0)
        (.ok res) →
      (res.1.iterations : ℝ) ≤ 8 * (pb.cost x - fmin) / (ns * min Delta0 (ns / B)) +
        Real.logb (1 + tau) (Real.log (A * ε ^ tau) / Real.log (A * ns ^ tau)) + 1 ∧
      (8 * (pb.cost x - fmin) / (ns * min Delta0 (ns / B)) +
          Real.logb (1 + tau) (Real.log (A * ε ^ tau) / Real.log (A * ns ^ tau)) + 1 <
            cfg.maxIterations →
        (∀ i, clk.check2 i 0 < clk.start + cfg.maxTime) → 0 ≤ cfg.maxCostEvaluations →
        pb.M.norm res.1.point (pb.grad res.1.point) < ε) := by
  have hA0 : 0 < A := by
    have : 0 ≤ C / mu ^ 2 := by positivity
    linarith
  have hB : 0 < B := hmu.trans_le hmuB
  have hns0 : 0 < ns := hε.trans_le hns
  obtain ⟨k0, hk0⟩ : ∃ k0, k0 = 1 / 8 * (ns * min Delta0 (ns / B)) := ⟨_, rfl⟩
  have hmn : 0 < min Delta0 (ns / B) := lt_min hD0 (by positivity)
  have hk0p : 0 < k0 := by rw [hk0]; positivity
  have hbnd : 8 * (pb.cost x - fmin) / (ns * min Delta0 (ns / B)) = (pb.cost x - fmin) / k0 := by
    rw [hk0]
    field_simp
  rw [hbnd]
  obtain ⟨v, hv⟩ : ∃ v, v = A * ns ^ tau := ⟨_, rfl⟩
  have hv0 : 0 < v := by rw [hv]; exact mul_pos hA0 (Real.rpow_pos_of_pos hns0 _)
  rw [← hv] at hnsA ⊢
  let Inv : TRState ℝ P E → Prop := fun t => TRGood pb On DeltaBar t ∧
    ε ≤ tlen pb t.x (pb.grad t.x) ∧ Delta0 ≤ t.Delta ∧
    ∃ N j : ℕ, t.iteration = N + j ∧ N * k0 ≤ pb.cost x - pb.cost t.x ∧
      (0 < j → tlen pb t.x (pb.grad t.x) < ns ∧
        A * tlen pb t.x (pb.grad t.x) ^ tau ≤ v ^ ((1 + tau) ^ j))
  have hsmall : ∀ t, Inv t → tlen pb t.x (pb.grad t.x) < ns →
      ∃ N j : ℕ, t.iteration = N + j ∧ N * k0 ≤ pb.cost x - pb.cost t.x ∧
        A * tlen pb t.x (pb.grad t.x) ^ tau ≤ v ^ ((1 + tau) ^ j) := by
    rintro t ⟨i1, i2, i3, N, j, j1, j2, j3⟩ hlt
    refine ⟨N, j, j1, j2, ?_⟩
    rcases Nat.eq_zero_or_pos j with rfl | hj
    · rw [pow_zero, Real.rpow_one, hv]
      exact mul_le_mul_of_nonneg_left (Real.rpow_le_rpow (hε.le.trans i2) hlt.le ht0.le) hA0.le
    · exact (j3 hj).2
  have hstep : ∀ t t', Inv t → trStep cfg c pb clk eta0 mininner maxinner DeltaBar t =
      .ok (.next t') → Inv t' := by
    intro t t' hI hr
    obtain ⟨i1, i2, i3, N, j, j1, j2, j3⟩ := id hI
    have hnt := hε.trans_le i2
    obtain ⟨u, u1, u2, u3, u4, u5, u6⟩ := C146_step hS hN hM hmu hC hd hrand hk hmin hmax hrho hreg
      i1 hnt hr
    rcases u6 with ⟨hc, he⟩ | ⟨_, _, res, he, -⟩
    swap
    · cases he
    obtain rfl : t' = u := by injection he
    have hge := checkStop_none hc
    rw [u1.norm, hnorm _ u1.mem, hcfg] at hge
    refine ⟨u1, hge, i3.trans u3, ?_⟩
    have hmt : 0 < min t.Delta (tlen pb t.x (pb.grad t.x) / B) := lt_min i1.pos (by positivity)
    rcases lt_or_ge (tlen pb t.x (pb.grad t.x)) ns with hlt | hge'
    · obtain ⟨N', j', l1, l2, l3⟩ := hsmall t hI hlt
      have hw : A * tlen pb t.x (pb.grad t.x) ^ tau ≤ 1 := by
        refine (mul_le_mul_of_nonneg_left (Real.rpow_le_rpow hnt.le hlt.le ht0.le) hA0.le).trans ?_
        rw [← hv]
        exact hnsA.le
      rcases u5 with ⟨v1, v2⟩ | ⟨v1, -⟩
      swap
      · exfalso
        have := mul_lt_mul_of_pos_left hlt (div_pos two_pos hmu)
        linarith
      obtain ⟨w1, w2⟩ := superlinear_num hC hA ht0 ht1 htt hnt (Real.sqrt_nonneg _) hw v2
      refine ⟨N', j' + 1, by rw [u2, l1]; push_cast; ring, ?_, fun _ => ⟨w1.trans_lt hlt, ?_⟩⟩
      · have : 0 < 1 / 8 * tlen pb t.x (pb.grad t.x) *
            min t.Delta (tlen pb t.x (pb.grad t.x) / B) := by positivity
        linarith
      · exact superlinear_pow ht0 (mul_pos hA0 (Real.rpow_pos_of_pos hnt _)).le hv0.le l3 w2
    · obtain rfl : j = 0 := by
        by_contra h0
        exact absurd (j3 (Nat.pos_of_ne_zero h0)).1 (not_lt.2 hge')
      refine ⟨N + 1, 0, by rw [u2, j1]; push_cast; ring, ?_, fun h => absurd h (lt_irrefl _)⟩
      have : k0 ≤ 1 / 8 * tlen pb t.x (pb.grad t.x) *
          min t.Delta (tlen pb t.x (pb.grad t.x) / B) := by
        rw [hk0, mul_assoc]
        refine mul_le_mul_of_nonneg_left (mul_le_mul hge' (min_le_min i3
          (div_le_div_of_nonneg_right hge' hB.le)) hmn.le hnt.le) (by norm_num)
      push_cast
      linarith
  have h0 : Inv (trInit pb x Delta0) :=
    ⟨⟨hx, rfl, rfl, rfl, hD0, hDB⟩, hx0, le_rfl, 0, 0, rfl, by simp [trInit],
      fun h => absurd h (lt_irrefl _)⟩
  have hlv : Real.log v < 0 := Real.log_neg hv0 hnsA
  have hlε : Real.log (A * ε ^ tau) ≤ Real.log v := by
    refine Real.log_le_log (mul_pos hA0 (Real.rpow_pos_of_pos hε _)) ?_
    rw [hv]
    exact mul_le_mul_of_nonneg_left (Real.rpow_le_rpow hε.le hns ht0.le) hA0.le
  have hrat1 : 1 ≤ Real.log (A * ε ^ tau) / Real.log v := (one_le_div_of_neg hlv).2 hlε
  have hcount : ∀ t, Inv t → (t.iteration : ℝ) ≤ (pb.cost x - fmin) / k0 +
      Real.logb (1 + tau) (Real.log (A * ε ^ tau) / Real.log v) := by
    rintro t ⟨i1, i2, i3, N, j, j1, j2, j3⟩
    have hNle : (N : ℝ) ≤ (pb.cost x - fmin) / k0 := by
      rw [le_div_iff₀ hk0p]
      have := hfmin t.x i1.mem
      linarith
    have hjle : (j : ℝ) ≤ Real.logb (1 + tau) (Real.log (A * ε ^ tau) / Real.log v) := by
      rcases Nat.eq_zero_or_pos j with rfl | hj
      · simpa using Real.logb_nonneg (by linarith : 1 < 1 + tau) hrat1
      · have h1 := (j3 hj).2
        have h2 : A * ε ^ tau ≤ v ^ ((1 + tau) ^ j) :=
          (mul_le_mul_of_nonneg_left (Real.rpow_le_rpow hε.le i2 ht0.le) hA0.le).trans h1
        have h3 := Real.log_le_log (mul_pos hA0 (Real.rpow_pos_of_pos hε _)) h2
        rw [Real.log_rpow hv0] at h3
        have h4 : (1 + tau) ^ j ≤ Real.log (A * ε ^ tau) / Real.log v :=
          (le_div_iff_of_neg hlv).2 h3
        have h5 := Real.logb_le_logb_of_le (by linarith : 1 < 1 + tau) (by positivity) h4
        rwa [Real.logb_pow, Real.logb_self_eq_one (by linarith), mul_one] at h5
    have : (t.iteration : ℝ) = N + j := by exact_mod_cast j1
    linarith
  refine ⟨fun t ht => ?_, fun res hres => ?_⟩
  · have hI := Reaches.invariant Inv hstep ht h0
    exact ⟨hI.2.2.1, hcount t hI⟩
  refine hres.invariant (Inv := Inv)
    (Post := fun res => (res.1.iterations : ℝ) ≤ (pb.cost x - fmin) / k0 +
        Real.logb (1 + tau) (Real.log (A * ε ^ tau) / Real.log v) + 1 ∧
      ((pb.cost x - fmin) / k0 + Real.logb (1 + tau) (Real.log (A * ε ^ tau) / Real.log v) + 1 <
          cfg.maxIterations →
        (∀ i, clk.check2 i 0 < clk.start + cfg.maxTime) → 0 ≤ cfg.maxCostEvaluations →
        pb.M.norm res.1.point (pb.grad res.1.point) < ε)) hstep ?_ h0
  intro t res hI hr
  have hit := hcount t hI
  obtain ⟨u, u1, u2, -, -, -, u6⟩ := C146_step hS hN hM hmu hC hd hrand hk hmin hmax hrho hreg
    hI.1 (hε.trans_le hI.2.1) hr
  rcases u6 with ⟨_, he⟩ | ⟨_, hc, res', he, p1, -, p3, -⟩
  · cases he
  obtain rfl : res = res' := by injection he
  refine ⟨by rw [p3]; push_cast; linarith, fun hmaxI htime hce => ?_⟩
  rw [p1, ← u1.norm]
  unfold checkStop at hc
  simp only at hc
  rw [if_neg (by
    have := htime (t.iteration + 1)
    simp only [PyNum.le, PyNum.add, decide_eq_true_eq, not_le]
    exact this), if_neg (by
    have : ((t.iteration + 1 : ℤ) : ℝ) < cfg.maxIterations := by push_cast; linarith
    have : t.iteration + 1 < cfg.maxIterations := by exact_mod_cast this
    omega)] at hc
  rw [← hcfg]
  by_contra hlt
  rw [if_neg (by simpa [PyNum.lt] using hlt), if_neg (by simp), if_neg (by omega)] at hc
  cases hc

end

end Verif.Opt
