/-
C114: for costs below a quadratic model along retractions, with a Hessian of bounded curvature, trust
regions finds a point with small gradient within an explicit number of iterations.
-/
import Verif.Opt.Props.TRProgress
import Verif.Opt.Props.TCGTangent
import Mathlib.Analysis.SpecialFunctions.Log.Base
import Mathlib.Analysis.SpecialFunctions.Pow.Real

namespace Verif.Opt
open PyNum

variable {P E : Type*}

/-! ## Specification -/

/-- Along retractions the cost lies below the quadratic model with constant `L`; the curvature of the
Hessian is at most `B`. -/
structure SmoothModel (pb : Prob ℝ P E) (On : P → Prop) (Tan : P → E → Prop) (L B : ℝ) : Prop where
  closed : ∀ x v, On x → Tan x v → On (pb.M.retraction x v)
  grad : ∀ x, On x → Tan x (pb.grad x)
  upper : ∀ x v, On x → Tan x v → pb.cost (pb.M.retraction x v) ≤
    pb.cost x + pb.M.inner x (pb.grad x) v + L / 2 * pb.M.inner x v v
  curv : ∀ x v, On x → Tan x v → |pb.M.inner x v (pb.hess x v)| ≤ B * pb.M.inner x v v

/-! ## One iteration -/

/-- The Cauchy decrease. -/
theorem model_decrease {n Delta B G m : ℝ} (hn : 0 < n) (hD : 0 < Delta) (hB : 0 < B)
    (hG : G ≤ B * n ^ 2)
    (h : ∀ t, 0 ≤ t → t ^ 2 * n ^ 2 ≤ Delta ^ 2 → m ≤ -t * n ^ 2 + 1 / 2 * t ^ 2 * G) :
    1 / 2 * n * min Delta (n / B) ≤ -m := by
  obtain ⟨u, hu⟩ : ∃ u, u = min Delta (n / B) := ⟨_, rfl⟩
  have hu0 : 0 < u := by rw [hu]; exact lt_min hD (div_pos hn hB)
  have huD : u ≤ Delta := by rw [hu]; exact min_le_left _ _
  have huB : u * B ≤ n := by
    rw [← le_div_iff₀ hB, hu]
    exact min_le_right _ _
  rw [← hu]
  have e : (u / n) ^ 2 * n ^ 2 = u ^ 2 := by field_simp
  have h1 := h (u / n) (by positivity) (by rw [e]; exact pow_le_pow_left₀ hu0.le huD 2)
  have e2 : -(u / n) * n ^ 2 = -(u * n) := by field_simp
  have h2 : (u / n) ^ 2 * G ≤ u ^ 2 * B := by
    calc (u / n) ^ 2 * G ≤ (u / n) ^ 2 * (B * n ^ 2) := mul_le_mul_of_nonneg_left hG (by positivity)
      _ = u ^ 2 * B := by rw [← e]; ring
  have h3 : u ^ 2 * B ≤ u * n := by
    calc u ^ 2 * B = u * (u * B) := by ring
      _ ≤ u * n := mul_le_mul_of_nonneg_left huB hu0.le
  rw [e2] at h1
  nlinarith

/-- What one iteration does at a point with gradient norm `n`. -/
theorem trStep_rate {cfg : Cfg ℝ} {c : TRCfg ℝ} {pb : Prob ℝ P E} {clk : Clock ℝ} {eta0 : ℤ → E}
    {mininner maxinner : ℤ} {DeltaBar L B n : ℝ} {On : P → Prop} {Tan : P → E → Prop}
    (hS : TCGSound pb On Tan) (hM : SmoothModel pb On Tan L B) (hL : 0 ≤ L) (hB : 0 < B)
    (hrand : c.useRand = false) (hrho0 : 0 ≤ c.rhoPrime) (hrho : c.rhoPrime < 1 / 4)
    (hreg : 0 ≤ c.rhoRegularization) {s s' : TRState ℝ P E} (hx : On s.x)
    (hf : s.fx = pb.cost s.x) (hg : s.fgradx = pb.grad s.x) (hD : 0 < s.Delta)
    (hDB : s.Delta ≤ DeltaBar) (hn : 0 < n)
    (hn2 : pb.M.inner s.x (pb.grad s.x) (pb.grad s.x) = n ^ 2)
    (h : trStep cfg c pb clk eta0 mininner maxinner DeltaBar s = .ok (.next s')) :
    On s'.x ∧ s'.fx = pb.cost s'.x ∧ s'.fgradx = pb.grad s'.x ∧
    s'.iteration = s.iteration + 1 ∧ s'.Delta ≤ DeltaBar ∧
    (s'.Delta < s.Delta → s'.Delta = s.Delta / 4 ∧ 3 * n < 4 * (L + B) * s.Delta) ∧
    ((s'.Delta ≤ 2 * s.Delta ∧ s'.fx ≤ s.fx - (c.rhoPrime * (1 / 2 * n * min s.Delta (n / B)) -
        (1 - c.rhoPrime) * rhoReg c s.fx)) ∨
      s'.Delta = s.Delta / 4 ∧ s'.x = s.x ∧ s'.fx = s.fx) := by
  obtain ⟨o, eta, Heta, rho, md, D, h1, h2, h3, h4, ⟨-, h6⟩ | ⟨_, -, h6⟩⟩ := trStep_inv h
  swap
  · cases h6
  rw [hrand] at h1 h2
  simp only [Bool.false_eq_true, if_false, Except.ok.injEq, Prod.mk.injEq] at h1 h2
  obtain ⟨rfl, rfl⟩ := h2
  rw [hg] at h1 h3
  obtain ⟨hTan, hHeta, hle, -, hm⟩ := hS c mininner maxinner s.x s.Delta o hrand hx h1
  have hcg := hM.curv s.x _ hx (hM.grad s.x hx)
  rw [hn2] at hcg hm
  have hdec := model_decrease hn hD hB (abs_le.1 hcg).2 hm
  have hup := hM.upper s.x _ hx hTan
  have hcv := abs_le.1 (hM.curv s.x _ hx hTan)
  rw [← hHeta] at hcv
  have hr0 : 0 ≤ rhoReg c s.fx := by
    unfold rhoReg
    simp only [PyNum.mul, PyNum.toNp, PyNum.lit]
    refine mul_nonneg (mul_nonneg ?_ (by norm_num)) hreg
    unfold pymax
    split
    · rename_i h
      simp only [PyNum.lt, decide_eq_true_eq] at h
      refine le_trans ?_ h.le
      norm_num
    · norm_num
  -- abbreviations
  obtain ⟨u, hu⟩ : ∃ u, u = min s.Delta (n / B) := ⟨_, rfl⟩
  have hu0 : 0 < u := by rw [hu]; exact lt_min hD (div_pos hn hB)
  rw [← hu] at hdec ⊢
  obtain ⟨m, hmm⟩ : ∃ m, m = pb.M.inner s.x (pb.grad s.x) o.eta +
    1 / 2 * pb.M.inner s.x o.eta o.Heta := ⟨_, rfl⟩
  rw [← hmm] at hdec
  obtain ⟨q, hq⟩ : ∃ q, q = rhoReg c s.fx := ⟨_, rfl⟩
  rw [← hq] at hr0 ⊢
  obtain ⟨f', hf'⟩ : ∃ f', f' = pb.cost (pb.M.retraction s.x o.eta) := ⟨_, rfl⟩
  have hnu : 0 < 1 / 2 * n * u := by positivity
  have hden : 0 < -m + q := by linarith
  have hratio : rho = (s.fx - f' + q) / (-m + q) ∧ md = true := by
    unfold trRatio at h3
    have e1 : add (sub (neg (pb.M.inner s.x (pb.grad s.x) o.eta))
        (mul (lit (1 / 2)) (pb.M.inner s.x o.eta o.Heta))) (rhoReg c s.fx) = -m + q := by
      rw [hmm, hq]
      simp only [PyNum.add, PyNum.sub, PyNum.neg, PyNum.mul, PyNum.lit]
      push_cast
      ring
    have e2 : add (sub s.fx (pb.cost (pb.M.retraction s.x o.eta))) (rhoReg c s.fx) =
        s.fx - f' + q := by rw [hf', hq]; rfl
    simp only [e1, e2] at h3
    have e3 : div (s.fx - f' + q) (-m + q) = .ok ((s.fx - f' + q) / (-m + q)) := by
      change (if _ = (0 : ℝ) then _ else _) = _
      rw [if_neg hden.ne']
    rw [e3] at h3
    simp only [Except.ok.injEq, Prod.mk.injEq] at h3
    refine ⟨h3.1.symm, ?_⟩
    rw [← h3.2]
    simp only [PyNum.le, PyNum.lit, Rat.cast_zero, decide_eq_true_eq]
    exact hden.le
  obtain ⟨hrhoe, rfl⟩ := hratio
  have hrd : rho * (-m + q) = s.fx - f' + q := by
    rw [hrhoe]
    exact div_mul_cancel₀ _ hden.ne'
  -- the radius shrinks only if it was large
  have hbig : rho < 1 / 4 → 3 * n < 4 * (L + B) * s.Delta := by
    intro hlt
    by_contra hc
    have hc' : 4 * (L + B) * s.Delta ≤ 3 * n := not_lt.1 hc
    have hmin : u = s.Delta := by
      rw [hu]
      refine min_eq_left ?_
      rw [le_div_iff₀ hB]
      nlinarith
    have h5 : rho * (-m + q) < 1 / 4 * (-m + q) := mul_lt_mul_of_pos_right hlt hden
    rw [hrd] at h5
    have h7 : (L + B) * pb.M.inner s.x o.eta o.eta ≤ (L + B) * s.Delta ^ 2 :=
      mul_le_mul_of_nonneg_left hle (by linarith)
    have h8 : s.Delta * (4 * (L + B) * s.Delta) ≤ s.Delta * (3 * n) :=
      mul_le_mul_of_nonneg_left hc' hD.le
    rw [hmin] at hdec
    rw [← hf', ← hf] at hup
    nlinarith
  have hrad : D ≤ DeltaBar ∧ D ≤ 2 * s.Delta ∧ (D < s.Delta → D = s.Delta / 4 ∧ rho < 1 / 4) ∧
      (rho < 1 / 4 → D = s.Delta / 4) := by
    unfold trRadius at h4
    split at h4
    · rename_i hc
      simp only [PyNum.lt, PyNum.lit, PyNum.isnan, Bool.or_false, Bool.not_true,
        decide_eq_true_eq] at hc
      change (if _ = (0 : ℝ) then _ else _) = _ at h4
      rw [if_neg (by simp [PyNum.lit])] at h4
      cases h4
      have : s.Delta / lit 4 = s.Delta / 4 := by simp [PyNum.lit]
      rw [this]
      have hc4 : rho < 1 / 4 := by norm_num at hc; linarith
      exact ⟨by linarith, by linarith, fun _ => ⟨rfl, hc4⟩, fun _ => rfl⟩
    · rename_i hc
      simp only [PyNum.lt, PyNum.lit, PyNum.isnan, Bool.or_false, Bool.not_true,
        decide_eq_true_eq, not_lt] at hc
      have hc4 : 1 / 4 ≤ rho := by norm_num at hc; linarith
      split at h4
      · cases h4
        have e : mul (lit 2) s.Delta = 2 * s.Delta := by simp [PyNum.mul, PyNum.lit]
        rw [e]
        unfold pymin
        split
        · rename_i hlt
          simp only [PyNum.lt, decide_eq_true_eq] at hlt
          exact ⟨le_rfl, hlt.le, fun h => absurd h (not_lt.2 hDB), fun h => absurd h (not_lt.2 hc4)⟩
        · rename_i hlt
          simp only [PyNum.lt, decide_eq_true_eq, not_lt] at hlt
          exact ⟨hlt, le_rfl, fun h => absurd h (not_lt.2 (by linarith)),
            fun h => absurd h (not_lt.2 hc4)⟩
      · cases h4
        exact ⟨hDB, by linarith, fun h => absurd h (lt_irrefl _), fun h => absurd h (not_lt.2 hc4)⟩
  cases h6
  by_cases ha : trAccept c rho true = true
  · have hacc : c.rhoPrime < rho := by
      simpa [trAccept, PyNum.lt] using ha
    have e : trAfter pb s (trAccept c rho true) o.eta D =
        trAfter pb s true o.eta D := by rw [ha]
    rw [e]
    simp only [trAfter, if_true]
    refine ⟨hM.closed _ _ hx hTan, trivial, trivial, trivial, hrad.1, fun h => ?_,
      Or.inl ⟨hrad.2.1, ?_⟩⟩
    · obtain ⟨h7, h8⟩ := hrad.2.2.1 h
      exact ⟨h7, hbig h8⟩
    · have h7 : c.rhoPrime * (-m + q) < rho * (-m + q) := mul_lt_mul_of_pos_right hacc hden
      rw [hrd] at h7
      rw [← hf']
      have h8 : c.rhoPrime * (1 / 2 * n * u) ≤ c.rhoPrime * -m :=
        mul_le_mul_of_nonneg_left hdec hrho0
      linarith
  · have hfa : trAccept c rho true = false := by simpa using ha
    have hacc : rho ≤ c.rhoPrime := by
      simpa [trAccept, PyNum.lt] using ha
    rw [hfa]
    simp only [trAfter, Bool.false_eq_true, if_false]
    refine ⟨hx, hf, hg, trivial, hrad.1, fun h => ?_,
      Or.inr ⟨hrad.2.2.2 (by linarith), trivial, trivial⟩⟩
    obtain ⟨h7, h8⟩ := hrad.2.2.1 h
    exact ⟨h7, hbig h8⟩

/-! ## Runs -/

/-- **C114** Let the cost be bounded below by `fmin` and suppose no iterate up to some iteration has a
gradient norm below `ε`.  With `D = min Delta0 (3 ε / (16 (L + B)))`, the least radius, and
`k = rho_prime * ε / 2 * min D (ε / B)` minus the effect of regularisation, the least decrease of an
accepted step, the iteration count is `a + r` where `a k ≤ f(x0) - fmin` and
`4 ^ r * D ≤ 2 ^ a * Delta0`. -/
theorem C114_iterations {cfg : Cfg ℝ} {c : TRCfg ℝ} {pb : Prob ℝ P E} {clk : Clock ℝ} {eta0 : ℤ → E}
    {mininner maxinner : ℤ} {DeltaBar Delta0 L B ε fmin D k : ℝ} {On : P → Prop}
    {Tan : P → E → Prop} {x : P}
    (hS : TCGSound pb On Tan) (hM : SmoothModel pb On Tan L B) (hL : 0 ≤ L) (hB : 0 < B)
    (hrand : c.useRand = false) (hrho0 : 0 ≤ c.rhoPrime) (hrho : c.rhoPrime < 1 / 4)
    (hreg : 0 ≤ c.rhoRegularization) (hx : On x) (hD0 : 0 < Delta0) (hDB : Delta0 ≤ DeltaBar)
    (hfmin : ∀ y, On y → fmin ≤ pb.cost y) (hε : 0 < ε)
    (hD : D = min Delta0 (3 * ε / (16 * (L + B))))
    (hk : k = c.rhoPrime * (1 / 2 * ε * min D (ε / B)) -
      (1 - c.rhoPrime) * (max 1 (max |pb.cost x| |fmin|) / 2 ^ 52 * c.rhoRegularization))
    (hk0 : 0 ≤ k) {t : TRState ℝ P E}
    (ht : Reaches (trStep cfg c pb clk eta0 mininner maxinner DeltaBar) (trInit pb x Delta0) t)
    (hgrad : ∀ s, Reaches (trStep cfg c pb clk eta0 mininner maxinner DeltaBar)
        (trInit pb x Delta0) s → s.iteration < t.iteration →
      ε ^ 2 ≤ pb.M.inner s.x (pb.grad s.x) (pb.grad s.x)) :
    ∃ a r : ℕ, t.iteration = a + r ∧ t.fx ≤ pb.cost x - a * k ∧ a * k ≤ pb.cost x - fmin ∧
      4 ^ r * D ≤ 2 ^ a * Delta0 := by
  have hLB : 0 < L + B := by linarith
  have hDpos : 0 < D := by
    rw [hD]
    exact lt_min hD0 (by positivity)
  have key : On t.x ∧ t.fx = pb.cost t.x ∧ t.fgradx = pb.grad t.x ∧ D ≤ t.Delta ∧
      t.Delta ≤ DeltaBar ∧ t.fx ≤ pb.cost x ∧ ∃ a r : ℕ, t.iteration = a + r ∧
        t.fx ≤ pb.cost x - a * k ∧ 4 ^ r * t.Delta ≤ 2 ^ a * Delta0 := by
    induction ht with
    | refl =>
      refine ⟨hx, rfl, rfl, ?_, hDB, le_rfl, 0, 0, rfl, by simp [trInit], by simp [trInit]⟩
      rw [hD]
      exact min_le_left _ _
    | @tail s u hs hst ih =>
      have hit : u.iteration = s.iteration + 1 := by
        obtain ⟨o, eta, Heta, rho, md, D', -, -, -, -, ⟨-, h6⟩ | ⟨_, -, h6⟩⟩ := trStep_inv hst
        · cases h6
          unfold trAfter
          split <;> rfl
        · cases h6
      obtain ⟨i1, i2, i3, i4, i5, i6, a, r, j1, j2, j3⟩ := ih fun s' h h' =>
        hgrad s' h (by omega)
      have hq := hgrad s hs (by omega)
      obtain ⟨n, hn⟩ : ∃ n, n = Real.sqrt (pb.M.inner s.x (pb.grad s.x) (pb.grad s.x)) := ⟨_, rfl⟩
      have hnε : ε ≤ n := by
        rw [hn]
        exact Real.le_sqrt_of_sq_le hq
      have hn2 : pb.M.inner s.x (pb.grad s.x) (pb.grad s.x) = n ^ 2 := by
        rw [hn, Real.sq_sqrt (le_trans (by positivity) hq)]
      have hsD : 0 < s.Delta := hDpos.trans_le i4
      have hn0 : 0 < n := hε.trans_le hnε
      obtain ⟨k1, k2, k3, k4, k5, k6, k7⟩ := trStep_rate hS hM hL hB hrand hrho0 hrho hreg i1 i2 i3
        hsD i5 hn0 hn2 hst
      have hDu : D ≤ u.Delta := by
        by_cases hlt : u.Delta < s.Delta
        · obtain ⟨l1, l2⟩ := k6 hlt
          refine (hD.le.trans (min_le_right _ _)).trans ?_
          rw [l1, div_le_div_iff₀ (by positivity) (by norm_num)]
          nlinarith
        · exact i4.trans (not_lt.1 hlt)
      have hregle : rhoReg c s.fx ≤ max 1 (max |pb.cost x| |fmin|) / 2 ^ 52 * c.rhoRegularization := by
        have hm1 := hfmin s.x i1
        rw [← i2] at hm1
        have habs : |s.fx| ≤ max |pb.cost x| |fmin| := by
          rw [max_comm]
          exact abs_le_max_abs_abs hm1 i6
        have e : rhoReg c s.fx = max 1 |s.fx| / 2 ^ 52 * c.rhoRegularization := by
          unfold rhoReg pymax
          simp only [PyNum.mul, PyNum.toNp, PyNum.lit, PyNum.lt, PyNum.abs, decide_eq_true_eq]
          split
          · rename_i hl
            rw [max_eq_right (by norm_num at hl; exact hl.le)]
            push_cast
            ring
          · rename_i hl
            rw [max_eq_left (by norm_num at hl; exact hl)]
            push_cast
            ring
        rw [e]
        exact mul_le_mul_of_nonneg_right
          (div_le_div_of_nonneg_right (max_le_max le_rfl habs) (by positivity)) hreg
      rcases k7 with ⟨l1, l2⟩ | ⟨l1, l2, l3⟩
      · have hdk : u.fx ≤ s.fx - k := by
          refine l2.trans (sub_le_sub_left ?_ _)
          rw [hk]
          refine sub_le_sub (mul_le_mul_of_nonneg_left ?_ hrho0)
            (mul_le_mul_of_nonneg_left hregle (by linarith))
          refine mul_le_mul (by linarith) (min_le_min i4
            (div_le_div_of_nonneg_right hnε hB.le)) ?_ (by positivity)
          exact le_min hDpos.le (by positivity)
        refine ⟨k1, k2, k3, hDu, k5, by linarith, a + 1, r, ?_, ?_, ?_⟩
        · rw [k4, j1]; push_cast; ring
        · push_cast; linarith
        · calc 4 ^ r * u.Delta ≤ 4 ^ r * (2 * s.Delta) :=
                mul_le_mul_of_nonneg_left l1 (by positivity)
            _ = 2 * (4 ^ r * s.Delta) := by ring
            _ ≤ 2 * (2 ^ a * Delta0) := by linarith
            _ = 2 ^ (a + 1) * Delta0 := by ring
      · refine ⟨k1, k2, k3, hDu, k5, by linarith, a, r + 1, ?_, by linarith, ?_⟩
        · rw [k4, j1]; push_cast; ring
        · rw [l1]
          calc 4 ^ (r + 1) * (s.Delta / 4) = 4 ^ r * s.Delta := by ring
            _ ≤ 2 ^ a * Delta0 := j3
  obtain ⟨h1, h2, -, h4, -, -, a, r, j1, j2, j3⟩ := key
  refine ⟨a, r, j1, j2, ?_, ?_⟩
  · have := hfmin t.x h1
    rw [← h2] at this
    linarith
  · exact (mul_le_mul_of_nonneg_left h4 (by positivity)).trans j3

/-- While the loop runs, the gradient norm is at least the threshold. -/
theorem tr_running {cfg : Cfg ℝ} {c : TRCfg ℝ} {pb : Prob ℝ P E} {clk : Clock ℝ} {eta0 : ℤ → E}
    {mininner maxinner : ℤ} {DeltaBar Delta0 : ℝ} {On : P → Prop} {Tan : P → E → Prop} {x : P}
    (hS : TCGSound pb On Tan) (hcl : ∀ x v, On x → Tan x v → On (pb.M.retraction x v))
    (hrand : c.useRand = false) (hx : On x)
    (hx0 : cfg.minGradientNorm ≤ pb.M.norm x (pb.grad x)) {t : TRState ℝ P E}
    (ht : Reaches (trStep cfg c pb clk eta0 mininner maxinner DeltaBar) (trInit pb x Delta0) t) :
    On t.x ∧ t.fgradx = pb.grad t.x ∧ t.normGrad = pb.M.norm t.x (pb.grad t.x) ∧
      cfg.minGradientNorm ≤ t.normGrad := by
  refine Reaches.invariant (fun t : TRState ℝ P E => On t.x ∧ t.fgradx = pb.grad t.x ∧
    t.normGrad = pb.M.norm t.x (pb.grad t.x) ∧ cfg.minGradientNorm ≤ t.normGrad) ?_ ht
    ⟨hx, rfl, rfl, hx0⟩
  rintro s s' ⟨h1, h2, h3, h4⟩ hs
  obtain ⟨o, eta, Heta, rho, md, D, k1, k2, -, -, ⟨hc, he⟩ | ⟨_, -, he⟩⟩ := trStep_inv hs
  swap
  · cases he
  rw [hrand] at k1 k2
  simp only [Bool.false_eq_true, if_false, Except.ok.injEq, Prod.mk.injEq] at k1 k2
  obtain ⟨rfl, rfl⟩ := k2
  rw [h2] at k1
  obtain ⟨hT, -⟩ := hS c mininner maxinner s.x s.Delta o hrand h1 k1
  obtain rfl : s' = trAfter pb s (trAccept c rho md) o.eta D := by
    injection he
  have hge : cfg.minGradientNorm ≤ (trAfter pb s (trAccept c rho md) o.eta D).normGrad := by
    unfold checkStop at hc
    simp only at hc
    split at hc
    · cases hc
    split at hc
    · cases hc
    split at hc
    · cases hc
    rename_i hlt
    simpa [PyNum.lt] using hlt
  refine ⟨?_, ?_, ?_, hge⟩
  · unfold trAfter
    split
    · exact hcl _ _ h1 hT
    · exact h1
  · unfold trAfter
    split
    · rfl
    · exact h2
  · unfold trAfter
    split
    · rfl
    · exact h3

/-- **C114** Trust regions stops: with a minimal gradient norm `ε`, it makes at most
`3 (f₀ - fmin) / (2 k) + log₄ (Delta0 / D) + 1` iterations, whatever the other limits; when the limits
on time and iterations are not met earlier, the point returned has gradient norm below `ε`. -/
theorem C114_terminates {cfg : Cfg ℝ} {c : TRCfg ℝ} {pb : Prob ℝ P E} {clk : Clock ℝ} {eta0 : ℤ → E}
    {mininner maxinner : ℤ} {DeltaBar Delta0 L B ε fmin D k : ℝ} {On : P → Prop}
    {Tan : P → E → Prop} {x : P}
    (hS : TCGSound pb On Tan) (hM : SmoothModel pb On Tan L B) (hL : 0 ≤ L) (hB : 0 < B)
    (hrand : c.useRand = false) (hrho0 : 0 ≤ c.rhoPrime) (hrho : c.rhoPrime < 1 / 4)
    (hreg : 0 ≤ c.rhoRegularization) (hx : On x) (hD0 : 0 < Delta0) (hDB : Delta0 ≤ DeltaBar)
    (hfmin : ∀ y, On y → fmin ≤ pb.cost y) (hε : 0 < ε)
    (hD : D = min Delta0 (3 * ε / (16 * (L + B))))
    (hk : k = c.rhoPrime * (1 / 2 * ε * min D (ε / B)) -
      (1 - c.rhoPrime) * (max 1 (max |pb.cost x| |fmin|) / 2 ^ 52 * c.rhoRegularization))
    (hk0 : 0 < k) (hcfg : cfg.minGradientNorm = ε)
    (hnorm : ∀ y, On y → pb.M.norm y (pb.grad y) ^ 2 = pb.M.inner y (pb.grad y) (pb.grad y))
    (hx0 : ε ≤ pb.M.norm x (pb.grad x)) :
    (∀ t, Reaches (trStep cfg c pb clk eta0 mininner maxinner DeltaBar) (trInit pb x Delta0) t →
      (t.iteration : ℝ) ≤ 3 / 2 * ((pb.cost x - fmin) / k) + Real.logb 4 (Delta0 / D)) ∧
    ∀ res, Runs (trStep cfg c pb clk eta0 mininner maxinner DeltaBar) (trInit pb x Delta0)
        (.ok res) →
      (res.1.iterations : ℝ) ≤ 3 / 2 * ((pb.cost x - fmin) / k) + Real.logb 4 (Delta0 / D) + 1 ∧
      (3 / 2 * ((pb.cost x - fmin) / k) + Real.logb 4 (Delta0 / D) + 1 < cfg.maxIterations →
        (∀ i, clk.check2 i 0 < clk.start + cfg.maxTime) → 0 ≤ cfg.maxCostEvaluations →
        pb.M.norm res.1.point (pb.grad res.1.point) < ε) := by
  have hLB : 0 < L + B := by linarith
  have hDpos : 0 < D := by
    rw [hD]
    exact lt_min hD0 (by positivity)
  have key : ∀ t, Reaches (trStep cfg c pb clk eta0 mininner maxinner DeltaBar)
      (trInit pb x Delta0) t →
      (t.iteration : ℝ) ≤ 3 / 2 * ((pb.cost x - fmin) / k) + Real.logb 4 (Delta0 / D) := by
    intro t ht
    obtain ⟨a, r, h1, -, h2, h3⟩ := C114_iterations hS hM hL hB hrand hrho0 hrho hreg hx hD0 hDB
      hfmin hε hD hk hk0.le ht fun s hs _ => by
        obtain ⟨i1, -, i2, i3⟩ := tr_running hS hM.closed hrand hx (hcfg ▸ hx0) hs
        rw [← hnorm _ i1, ← i2]
        rw [hcfg] at i3
        exact pow_le_pow_left₀ hε.le i3 2
    have ha : (a : ℝ) ≤ (pb.cost x - fmin) / k := (le_div_iff₀ hk0).2 h2
    have hr : (r : ℝ) ≤ a / 2 + Real.logb 4 (Delta0 / D) := by
      have h4 : (4 : ℝ) ^ r ≤ 2 ^ a * (Delta0 / D) := by
        rw [← mul_div_assoc, le_div_iff₀ hDpos]
        exact h3
      have h5 := Real.logb_le_logb_of_le (b := 4) (by norm_num) (by positivity) h4
      rw [Real.logb_mul (by positivity) (by positivity), Real.logb_pow, Real.logb_pow,
        Real.logb_self_eq_one (by norm_num)] at h5
      have h6 : Real.logb 4 2 = 1 / 2 := by
        rw [Real.logb_eq_iff_rpow_eq (by norm_num) (by norm_num) (by norm_num), ← Real.sqrt_eq_rpow,
          show (4 : ℝ) = 2 ^ 2 by norm_num, Real.sqrt_sq (by norm_num)]
      rw [h6] at h5
      linarith
    have : (t.iteration : ℝ) = a + r := by exact_mod_cast h1
    linarith
  refine ⟨key, fun res hres => ?_⟩
  refine hres.invariant
    (Inv := fun s => Reaches (trStep cfg c pb clk eta0 mininner maxinner DeltaBar)
      (trInit pb x Delta0) s)
    (Post := fun res => (res.1.iterations : ℝ) ≤
        3 / 2 * ((pb.cost x - fmin) / k) + Real.logb 4 (Delta0 / D) + 1 ∧
      (3 / 2 * ((pb.cost x - fmin) / k) + Real.logb 4 (Delta0 / D) + 1 < cfg.maxIterations →
        (∀ i, clk.check2 i 0 < clk.start + cfg.maxTime) → 0 ≤ cfg.maxCostEvaluations →
        pb.M.norm res.1.point (pb.grad res.1.point) < ε))
    (fun s s' hs hst => hs.tail hst) ?_ .refl
  intro s res hs hst
  obtain ⟨o, eta, Heta, rho, md, D', -, -, -, -, ⟨-, he⟩ | ⟨reason, hc, he⟩⟩ := trStep_inv hst
  · cases he
  obtain rfl := (Ctl.brk.inj he)
  have hit := key s hs
  obtain ⟨-, -, i2, -⟩ := tr_running hS hM.closed hrand hx (hcfg ▸ hx0) hs
  refine ⟨by push_cast; linarith, fun hmax htime hce => ?_⟩
  unfold checkStop at hc
  simp only at hc
  rw [if_neg (by
    have := htime (s.iteration + 1)
    simp only [PyNum.le, PyNum.add, decide_eq_true_eq, not_le]
    exact this), if_neg (by
    have : ((s.iteration + 1 : ℤ) : ℝ) < cfg.maxIterations := by push_cast; linarith
    have : s.iteration + 1 < cfg.maxIterations := by exact_mod_cast this
    omega)] at hc
  have hn : (trAfter pb s (trAccept c rho md) eta D').normGrad =
      pb.M.norm (trAfter pb s (trAccept c rho md) eta D').x
        (pb.grad (trAfter pb s (trAccept c rho md) eta D').x) := by
    unfold trAfter
    split
    · rfl
    · exact i2
  rw [← hn, ← hcfg]
  by_contra hlt
  rw [if_neg (by simpa [PyNum.lt] using hlt), if_neg (by simp), if_neg (by omega)] at hc
  cases hc

/-! ## The hypotheses are met -/

/-- Minimising `x ^ 2` from `1` with a quadratic model of constant `2`, no regularisation and the
threshold `1 / 100`. -/
example : TCGSound realSquare (fun _ => True) (fun _ _ => True) ∧
    SmoothModel realSquare (fun _ => True) (fun _ _ => True) 2 2 ∧
    (∀ y, (0 : ℝ) ≤ realSquare.cost y) ∧
    0 < (1 / 10 : ℝ) * (1 / 2 * (1 / 100) * min (min (1 / 8) (3 * (1 / 100) / (16 * (2 + 2))))
      (1 / 100 / 2)) - (1 - 1 / 10) * (max 1 (max |realSquare.cost 1| |0|) / 2 ^ 52 * 0) ∧
    (∀ y, realSquare.M.norm y (realSquare.grad y) ^ 2 =
      realSquare.M.inner y (realSquare.grad y) (realSquare.grad y)) ∧
    1 / 100 ≤ realSquare.M.norm 1 (realSquare.grad 1) := by
  refine ⟨?_, ⟨fun _ _ _ _ => trivial, fun _ _ => trivial, ?_, ?_⟩, ?_, ?_, ?_, ?_⟩
  · intro c mininner maxinner x Delta o hrand _ h
    have hE : TangentAt realSquare x (fun v : ℝ => v) ((2 : ℝ) • LinearMap.id) fun v => v :=
      ⟨fun u v => mul_comm u v, rfl, fun _ => rfl, fun _ _ => rfl, fun _ => rfl, fun _ _ => rfl,
        fun _ => rfl, fun _ => rfl⟩
    obtain ⟨eta, h1, h2, h3, h4, h5⟩ := tcg_sound_at hE
      (fun u v => by simp; ring) hrand (g := 2 * x) h
    rw [h2, h1]
    simp only [RCLike.inner_apply, conj_trivial, LinearMap.smul_apply, LinearMap.id_apply, smul_eq_mul] at h3 h4 h5
    refine ⟨trivial, rfl, h3, h4, fun t ht htD => ?_⟩
    have := h5 t ht htD
    simp only [realSquare, realMfd] at this ⊢
    simp only [LinearMap.smul_apply, LinearMap.id_apply, smul_eq_mul]
    linarith
  · intro x v _ _
    simp only [realSquare, realMfd]
    linarith
  · intro x v _ _
    simp only [realSquare, realMfd]
    rw [abs_of_nonneg (by nlinarith [mul_self_nonneg v])]
    linarith
  · intro y
    exact sq_nonneg y
  · norm_num
  · intro y
    simp only [realSquare, realMfd]
    rw [sq_abs]
    ring
  · norm_num [realSquare, realMfd]

end Verif.Opt
