/-
C113: the trust-region method does not get stuck at a point where the gradient does not vanish.
-/
import Verif.Opt.Props.Progress
import Verif.Opt.Props.TCG

namespace Verif.Opt
open PyNum Filter Topology

variable {P E : Type*}

/-! ## Specification -/

/-- At `x` the operations on multiples of the direction `d` are those of a vector space with an
inner product, and `-d` is a descent direction for the model: `d` is the preconditioned gradient. -/
structure LocalOps (pb : Prob ℝ P E) (x : P) : Prop where
  zeroAdd : ∀ a, pb.M.add (pb.M.zeroVector x) (pb.M.smul a (pb.M.neg (pb.precon x (pb.grad x)))) =
    pb.M.smul a (pb.M.neg (pb.precon x (pb.grad x)))
  zeroAddHess : ∀ a, pb.M.add (pb.M.zeroVector x)
      (pb.M.smul a (pb.hess x (pb.M.neg (pb.precon x (pb.grad x))))) =
    pb.M.smul a (pb.hess x (pb.M.neg (pb.precon x (pb.grad x))))
  grad : ∀ a, pb.M.inner x (pb.grad x) (pb.M.smul a (pb.M.neg (pb.precon x (pb.grad x)))) =
    -(a * pb.M.inner x (pb.precon x (pb.grad x)) (pb.grad x))
  hess : ∀ a b, pb.M.inner x (pb.M.smul a (pb.M.neg (pb.precon x (pb.grad x))))
      (pb.M.smul b (pb.hess x (pb.M.neg (pb.precon x (pb.grad x))))) =
    a * b * pb.M.inner x (pb.M.neg (pb.precon x (pb.grad x)))
      (pb.hess x (pb.M.neg (pb.precon x (pb.grad x))))
  pos : 0 < pb.M.inner x (pb.precon x (pb.grad x)) (pb.grad x)

/-! ## The first inner iteration -/

theorem pow_two_real (a : ℝ) : pow a (lit 2) = a ^ 2 := by
  simp only [PyNum.pow, PyNum.lit]
  norm_num

/-- In a small trust region the subproblem solver stops in its first iteration, at the boundary. -/
theorem tcg_small {c : TRCfg ℝ} {pb : Prob ℝ P E} {x : P} (hx : LocalOps pb x)
    (hrand : c.useRand = false) {Delta : ℝ} (hD : 0 < Delta) {mininner maxinner : ℤ}
    (hmax : 1 ≤ maxinner)
    (hsmall : 0 < pb.M.inner x (pb.M.neg (pb.precon x (pb.grad x)))
        (pb.hess x (pb.M.neg (pb.precon x (pb.grad x)))) →
      Delta * pb.M.inner x (pb.M.neg (pb.precon x (pb.grad x)))
        (pb.hess x (pb.M.neg (pb.precon x (pb.grad x)))) ≤
      pb.M.inner x (pb.precon x (pb.grad x)) (pb.grad x) *
        Real.sqrt (pb.M.inner x (pb.precon x (pb.grad x)) (pb.grad x))) :
    ∃ o, tcg c pb x (pb.grad x) (pb.M.zeroVector x) Delta mininner maxinner = .ok o ∧
      (o.stop = .negativeCurvature ∨ o.stop = .exceededTR) ∧
      o.eta = pb.M.smul (Delta / Real.sqrt (pb.M.inner x (pb.precon x (pb.grad x)) (pb.grad x)))
        (pb.M.neg (pb.precon x (pb.grad x))) ∧
      o.Heta = pb.M.smul (Delta / Real.sqrt (pb.M.inner x (pb.precon x (pb.grad x)) (pb.grad x)))
        (pb.hess x (pb.M.neg (pb.precon x (pb.grad x)))) := by
  obtain ⟨n, hn⟩ : ∃ n, maxinner.toNat = n + 1 := ⟨maxinner.toNat - 1, by omega⟩
  have hpos := hx.pos
  set zr := pb.M.inner x (pb.precon x (pb.grad x)) (pb.grad x) with hzr
  set h := pb.M.inner x (pb.M.neg (pb.precon x (pb.grad x)))
    (pb.hess x (pb.M.neg (pb.precon x (pb.grad x)))) with hh
  have hs0 : 0 < Real.sqrt zr := Real.sqrt_pos.2 hpos
  have hs2 : Real.sqrt zr * Real.sqrt zr = zr := Real.mul_self_sqrt hpos.le
  have htau : (-0 + Real.sqrt (0 * 0 + zr * (Delta ^ 2 - 0))) / zr = Delta / Real.sqrt zr := by
    rw [neg_zero, zero_add, mul_zero, zero_add, sub_zero, Real.sqrt_mul hpos.le,
      Real.sqrt_sq hD.le, div_eq_div_iff hpos.ne' hs0.ne']
    nlinarith
  have hbody : ∃ o, tcgBody c pb x (pb.grad x) Delta
      (sqrt (pb.M.inner x (tcgInit c pb x (pb.grad x) (pb.M.zeroVector x)).r
        (tcgInit c pb x (pb.grad x) (pb.M.zeroVector x)).r)) mininner 0
      (tcgInit c pb x (pb.grad x) (pb.M.zeroVector x)) = .ok (.brk o) ∧
      (o.stop = .negativeCurvature ∨ o.stop = .exceededTR) ∧
      o.eta = pb.M.smul (Delta / Real.sqrt zr) (pb.M.neg (pb.precon x (pb.grad x))) ∧
      o.Heta = pb.M.smul (Delta / Real.sqrt zr)
        (pb.hess x (pb.M.neg (pb.precon x (pb.grad x)))) := by
    have hlit : (lit 0 : ℝ) = 0 := by simp [PyNum.lit]
    have hdivt : div (add (neg (0 : ℝ)) (sqrt (add (mul (0 : ℝ) 0)
        (mul zr (sub (pow Delta (lit 2)) 0))))) zr = .ok (Delta / Real.sqrt zr) := by
      rw [pow_two_real]
      change (if zr = 0 then _ else _) = _
      rw [if_neg hpos.ne']
      exact congrArg _ htau
    have hi : tcgInit c pb x (pb.grad x) (pb.M.zeroVector x) =
        { eta := pb.M.zeroVector x, Heta := pb.M.zeroVector x, r := pb.grad x, ePe := 0, zr := zr,
          dPd := zr, delta := pb.M.neg (pb.precon x (pb.grad x)), ePd := 0, modelValue := 0 } := by
      simp [tcgInit, hrand, hlit, hzr]
    rw [hi]
    simp only [tcgBody, ← hh, hdivt, hx.zeroAdd, hx.zeroAddHess]
    by_cases h0 : ne0 h = true
    · have hne : h ≠ 0 := by
        rintro h1
        simp [ne0, PyNum.le, h1, hlit] at h0
      have hd1 : div zr h = .ok (zr / h) := by
        change (if h = 0 then _ else _) = _
        rw [if_neg hne]
      simp only [h0, if_true, hd1]
      have hcond : (le h (lit 0) || le (pow Delta (lit 2)) (add (add 0 (mul (mul (lit 2) (zr / h)) 0))
          (mul (pow (zr / h) (lit 2)) zr))) = true := by
        rw [pow_two_real, pow_two_real]
        simp only [PyNum.le, PyNum.add, PyNum.mul, hlit, Bool.or_eq_true, decide_eq_true_eq]
        rcases le_or_gt h 0 with hle | hgt
        · exact Or.inl hle
        · right
          have h1 := hsmall hgt
          have h2 : Delta ≤ zr / h * Real.sqrt zr := by
            rw [div_mul_eq_mul_div, le_div_iff₀ hgt]
            exact h1
          have h3 : Delta ^ 2 ≤ (zr / h * Real.sqrt zr) ^ 2 := pow_le_pow_left₀ hD.le h2 2
          rw [mul_pow, Real.sq_sqrt hpos.le] at h3
          simpa using h3
      rw [if_pos hcond]
      refine ⟨_, rfl, ?_, rfl, rfl⟩
      by_cases hle : le h (lit 0) = true
      · simp [hle]
      · simp [hle]
    · have hz : h = 0 := by
        simp only [ne0, PyNum.le, hlit, Bool.not_eq_true', Bool.and_eq_false_iff,
          decide_eq_false_iff_not, not_or, not_not] at h0
        exact le_antisymm h0.1 h0.2
      have hle : le h (lit 0) = true := by simp [PyNum.le, hz, hlit]
      simp only [h0, hle, Bool.true_or, if_true]
      exact ⟨_, rfl, Or.inl rfl, rfl, rfl⟩
  obtain ⟨o, hb, hrest⟩ := hbody
  refine ⟨o, ?_, hrest⟩
  unfold tcg
  simp only [hn, tcgLoop, hb]

/-- The ratio of decreases of `t q` up to relative errors `ε` exceeds `m`. -/
theorem ratio_gt {m ε t q h reg num : ℝ} (hm0 : 1 / 4 ≤ m) (hm1 : m < 1) (hε : ε = (1 - m) / 4)
    (ht : 0 < t) (hq : 0 < q) (hlo : -(2 * ε * q) ≤ t * h) (hhi : t * h ≤ 2 * ε * q)
    (hreg : 0 ≤ reg) (hnum : (1 - ε) * (t * q) ≤ num) :
    0 < t * q - 1 / 2 * (t * t * h) + reg ∧
      m < (num + reg) / (t * q - 1 / 2 * (t * t * h) + reg) := by
  have htq : 0 < t * q := mul_pos ht hq
  have h1 : t * (t * h) ≤ t * (2 * ε * q) := mul_le_mul_of_nonneg_left hhi ht.le
  have h2 : t * -(2 * ε * q) ≤ t * (t * h) := mul_le_mul_of_nonneg_left hlo ht.le
  have h3 : ε * (t * q) ≤ 3 / 16 * (t * q) :=
    mul_le_mul_of_nonneg_right (by linarith) htq.le
  have hden : 0 < t * q - 1 / 2 * (t * t * h) + reg := by linarith
  refine ⟨hden, ?_⟩
  rw [lt_div_iff₀ hden]
  have h4 : t * q - 1 / 2 * (t * t * h) + reg ≤ (1 + ε) * (t * q) + reg := by linarith
  have h5 := mul_le_mul_of_nonneg_left h4 (by linarith : (0 : ℝ) ≤ m)
  have h6 : m * (1 + ε) < 1 - ε := by nlinarith
  have h7 := mul_lt_mul_of_pos_right h6 htq
  have h8 : m * reg ≤ 1 * reg := mul_le_mul_of_nonneg_right hm1.le hreg
  linarith

/-! ## C113 -/

/-- **C113** At a point where the cost has slope `-⟨precon g, g⟩ < 0` along `-precon g`, every
iteration with a small enough trust region is accepted, strictly lowers the cost and does not
shrink the region (for every `rho_prime < 1` and every `rho_regularization ≥ 0`, whatever the
Hessian returns). -/
theorem C113_accepts {cfg : Cfg ℝ} {c : TRCfg ℝ} {pb : Prob ℝ P E} {clk : Clock ℝ} {eta0 : ℤ → E}
    {mininner maxinner : ℤ} {DeltaBar : ℝ} {x : P} (hx : LocalOps pb x)
    (hs : HasSlope pb.cost pb.M x (pb.M.neg (pb.precon x (pb.grad x))) (pb.cost x)
      (-pb.M.inner x (pb.precon x (pb.grad x)) (pb.grad x)))
    (hrand : c.useRand = false) (hmax : 1 ≤ maxinner) (hrho : c.rhoPrime < 1)
    (hreg : 0 ≤ c.rhoRegularization) :
    ∃ Dstar > 0, ∀ s : TRState ℝ P E, s.x = x → s.fx = pb.cost x → s.fgradx = pb.grad x →
      0 < s.Delta → s.Delta < Dstar → s.Delta ≤ DeltaBar →
      ∃ r, trStep cfg c pb clk eta0 mininner maxinner DeltaBar s = .ok r ∧
        (TRNow r).2 < s.fx ∧ (TRNow r).2 = pb.cost (TRNow r).1 ∧
        ∀ s', r = .next s' → s.Delta ≤ s'.Delta := by
  have hpos := hx.pos
  have hsm := fun (D : ℝ) (h0 : 0 < D) => tcg_small (c := c) hx hrand h0 (mininner := mininner) hmax
  have hgrad := hx.grad
  have hhess := hx.hess
  generalize pb.M.inner x (pb.precon x (pb.grad x)) (pb.grad x) = q at *
  generalize pb.M.inner x (pb.M.neg (pb.precon x (pb.grad x)))
    (pb.hess x (pb.M.neg (pb.precon x (pb.grad x)))) = h at *
  have hs0 : 0 < Real.sqrt q := Real.sqrt_pos.2 hpos
  obtain ⟨m, hm⟩ : ∃ m, m = Max.max (1 / 4) c.rhoPrime := ⟨_, rfl⟩
  have hm1 : m < 1 := by rw [hm]; exact max_lt (by norm_num) hrho
  have hm4 : 1 / 4 ≤ m := by rw [hm]; exact le_max_left _ _
  have hmp : c.rhoPrime ≤ m := by rw [hm]; exact le_max_right _ _
  obtain ⟨ε, hε⟩ : ∃ ε, ε = (1 - m) / 4 := ⟨_, rfl⟩
  have hε0 : 0 < ε := by rw [hε]; linarith
  obtain ⟨δ, hδ, harm⟩ := armijo_eventually hs (by linarith : -q < 0) (c := 1 - ε) (by linarith)
  have hb : 0 < 2 * ε * q / (|h| + 1) := by positivity
  refine ⟨Real.sqrt q * Min.min δ (2 * ε * q / (|h| + 1)), mul_pos hs0 (lt_min hδ hb), ?_⟩
  intro s hsx hsf hsg hD hDs hDB
  obtain ⟨t, ht⟩ : ∃ t, t = s.Delta / Real.sqrt q := ⟨_, rfl⟩
  have ht0 : 0 < t := by rw [ht]; positivity
  have htD : s.Delta = t * Real.sqrt q := by rw [ht]; field_simp
  have htm : t < Min.min δ (2 * ε * q / (|h| + 1)) := by
    rw [ht, div_lt_iff₀ hs0, mul_comm]
    exact hDs
  have htδ := htm.trans_le (min_le_left _ _)
  have hth : t * |h| ≤ 2 * ε * q := by
    have h1 := htm.trans_le (min_le_right _ _)
    rw [lt_div_iff₀ (by positivity)] at h1
    nlinarith
  have hlo : -(2 * ε * q) ≤ t * h := by
    have : -(t * |h|) ≤ t * h := by nlinarith [neg_abs_le h]
    linarith
  have hhi : t * h ≤ 2 * ε * q := le_trans (by nlinarith [le_abs_self h]) hth
  obtain ⟨o, ho, hstop, heta, hHeta⟩ := hsm s.Delta hD fun _ => by
    have h1 : t * h ≤ q := hhi.trans (by nlinarith)
    have h2 := mul_le_mul_of_nonneg_right h1 hs0.le
    rw [htD]
    linarith
  rw [← ht] at heta hHeta
  have hdec := harm t ht0 htδ
  rw [violates_iff, not_lt] at hdec
  have hprop : pb.M.retraction s.x o.eta = trialPoint pb.M x
      (pb.M.neg (pb.precon x (pb.grad x))) t := by
    rw [hsx, heta]; rfl
  obtain ⟨fp, hfp⟩ : ∃ fp, fp = pb.cost (pb.M.retraction s.x o.eta) := ⟨_, rfl⟩
  rw [← hprop, ← hfp] at hdec
  have hrr : 0 ≤ rhoReg c s.fx := by
    simp only [rhoReg, PyNum.mul, PyNum.toNp, PyNum.lit, pymax]
    have : (0 : ℝ) ≤ if PyNum.lt ((1 : ℚ) : ℝ) (PyNum.abs s.fx) then PyNum.abs s.fx
        else ((1 : ℚ) : ℝ) := by
      split
      · exact abs_nonneg s.fx
      · norm_num
    positivity
  obtain ⟨reg, hr⟩ : ∃ reg, reg = rhoReg c s.fx := ⟨_, rfl⟩
  rw [← hr] at hrr
  have hnum : (1 - ε) * (t * q) ≤ s.fx - fp := by rw [hsf]; linarith
  obtain ⟨hden, hgt⟩ := ratio_gt hm4 hm1 hε ht0 hpos hlo hhi hrr hnum
  have hrat : trRatio c pb s.x s.fx s.fgradx fp o.eta o.Heta =
      .ok ((s.fx - fp + reg) / (t * q - 1 / 2 * (t * t * h) + reg), true) := by
    have e1 : pb.M.inner x (pb.grad x) o.eta = -(t * q) := by rw [heta, hgrad]
    have e2 : pb.M.inner x o.eta o.Heta = t * t * h := by rw [heta, hHeta, hhess]
    have e3 : add (sub (neg (-(t * q))) (mul (lit (1 / 2)) (t * t * h))) reg =
        t * q - 1 / 2 * (t * t * h) + reg := by
      simp only [PyNum.add, PyNum.sub, PyNum.neg, PyNum.mul, PyNum.lit]
      norm_num
    simp only [trRatio, hsx, hsg, e1, e2, ← hr, e3]
    have e4 : div (add (sub s.fx fp) reg) (t * q - 1 / 2 * (t * t * h) + reg) =
        .ok ((s.fx - fp + reg) / (t * q - 1 / 2 * (t * t * h) + reg)) := by
      change (if _ = (0 : ℝ) then _ else _) = _
      rw [if_neg hden.ne']
      rfl
    have e5 : le (lit 0) (t * q - 1 / 2 * (t * t * h) + reg) = true := by
      simp only [PyNum.le, PyNum.lit, Rat.cast_zero, decide_eq_true_eq]
      exact hden.le
    rw [e4, e5]
  obtain ⟨rho, hrho'⟩ : ∃ rho, rho = (s.fx - fp + reg) / (t * q - 1 / 2 * (t * t * h) + reg) :=
    ⟨_, rfl⟩
  rw [← hrho'] at hrat hgt
  have hacc : trAccept c rho true = true := by
    simp only [trAccept, PyNum.lt, Bool.true_and, decide_eq_true_eq]
    exact hmp.trans_lt hgt
  have hrad : ∀ stop, ∃ D, trRadius rho true stop DeltaBar s.Delta = .ok D ∧ s.Delta ≤ D := by
    intro stop
    have h1 : (lt rho (lit (1 / 4)) || !true || isnan rho) = false := by
      simp only [PyNum.lt, PyNum.lit, PyNum.isnan, Bool.not_true, Bool.or_false,
        decide_eq_false_iff_not, not_lt]
      norm_num
      linarith
    unfold trRadius
    rw [h1]
    simp only [Bool.false_eq_true, if_false]
    split
    · refine ⟨_, rfl, ?_⟩
      simp only [pymin, PyNum.mul, PyNum.lit, PyNum.lt, decide_eq_true_eq]
      split
      · exact hDB
      · norm_num
        linarith
    · exact ⟨_, rfl, le_rfl⟩
  have hlow : fp < s.fx := by
    have : 0 < (1 - ε) * (t * q) := mul_pos (by linarith) (mul_pos ht0 hpos)
    linarith
  have ho' : tcg c pb s.x s.fgradx (pb.M.zeroVector s.x) s.Delta mininner maxinner = .ok o := by
    rw [hsx, hsg]; exact ho
  have hp : TRProposal c pb eta0 mininner maxinner s o.eta o.Heta :=
    ⟨o, by rw [hrand]; exact ho', by rw [hrand]; rfl⟩
  have hok : ∃ r, trStep cfg c pb clk eta0 mininner maxinner DeltaBar s = .ok r := by
    obtain ⟨D, hD1, -⟩ := hrad o.stop
    unfold trStep
    simp only [hrand, Bool.false_eq_true, if_false, ho', ← hfp, hrat, hD1]
    split
    · exact ⟨_, rfl⟩
    · exact ⟨_, rfl⟩
  obtain ⟨r, hr'⟩ := hok
  refine ⟨r, hr', ?_⟩
  obtain ⟨stop, eta, Heta, rho', md, D, hp', hrat', hD', hnow, hnext⟩ := trStep_now hr'
  obtain ⟨rfl, rfl⟩ := hp.unique hp'
  rw [← hfp, hrat] at hrat'
  cases hrat'
  obtain ⟨D', hD1, hD2⟩ := hrad stop
  rw [hD1] at hD'
  cases hD'
  rw [hacc, if_pos rfl, ← hfp] at hnow
  rw [hnow]
  refine ⟨hlow, hfp, fun s' h' => ?_⟩
  rw [hnext s' h']
  exact hD2

/-- Over the reals a smaller radius is a quarter of the old one. -/
theorem trRadius_shrinks {rho : ℝ} {md : Bool} {stop : TCGStop} {DeltaBar Delta D : ℝ}
    (h : trRadius rho md stop DeltaBar Delta = .ok D) (hlt : D < Delta) (h0 : 0 < Delta)
    (hB : Delta ≤ DeltaBar) : D = Delta / 4 := by
  unfold trRadius at h
  split at h
  · change (if _ = (0 : ℝ) then _ else _) = _ at h
    rw [if_neg (by simp [PyNum.lit])] at h
    cases h
    simp [PyNum.lit]
  · split at h
    · cases h
      exfalso
      simp only [pymin, PyNum.mul, PyNum.lit, PyNum.lt, decide_eq_true_eq] at hlt
      split at hlt
      · linarith
      · norm_num at hlt
        linarith
    · cases h
      exact absurd hlt (lt_irrefl _)

/-- **C113** Only finitely many proposals in a row can be rejected: for every radius there is a
bound on the number of consecutive iterations that keep the iterate `x` and shrink the radius. -/
theorem C113_rejections_bounded {cfg : Cfg ℝ} {c : TRCfg ℝ} {pb : Prob ℝ P E} {clk : Clock ℝ}
    {eta0 : ℤ → E} {mininner maxinner : ℤ} {DeltaBar : ℝ} {x : P} (hx : LocalOps pb x)
    (hs : HasSlope pb.cost pb.M x (pb.M.neg (pb.precon x (pb.grad x))) (pb.cost x)
      (-pb.M.inner x (pb.precon x (pb.grad x)) (pb.grad x)))
    (hrand : c.useRand = false) (hmax : 1 ≤ maxinner) (hrho : c.rhoPrime < 1)
    (hreg : 0 ≤ c.rhoRegularization) {Delta : ℝ} (hD : 0 < Delta) (hB : Delta ≤ DeltaBar) :
    ∃ N : ℕ, ∀ (k : ℕ) (σ : ℕ → TRState ℝ P E), (σ 0).Delta = Delta →
      (∀ i ≤ k, (σ i).x = x ∧ (σ i).fx = pb.cost x ∧ (σ i).fgradx = pb.grad x) →
      (∀ i < k, trStep cfg c pb clk eta0 mininner maxinner DeltaBar (σ i) = .ok (.next (σ (i + 1))) ∧
        (σ (i + 1)).Delta < (σ i).Delta) → k ≤ N := by
  obtain ⟨Ds, hDs, hacc⟩ := C113_accepts (cfg := cfg) (clk := clk) (eta0 := eta0)
    (mininner := mininner) (DeltaBar := DeltaBar) hx hs hrand hmax hrho hreg
  obtain ⟨N, hN⟩ := exists_pow_lt_of_lt_one (div_pos hDs hD) (by norm_num : (1 / 4 : ℝ) < 1)
  rw [lt_div_iff₀ hD] at hN
  refine ⟨N, fun k σ h0 hat hstep => ?_⟩
  have key : ∀ i ≤ k, (σ i).Delta = (1 / 4) ^ i * Delta := by
    intro i
    induction i with
    | zero => intro _; rw [h0]; simp
    | succ i ih =>
      intro hi
      obtain ⟨h1, h2⟩ := hstep i (by omega)
      have hi' := ih (by omega)
      have hpos : 0 < (σ i).Delta := by rw [hi']; positivity
      have hle : (σ i).Delta ≤ DeltaBar := by
        refine le_trans ?_ hB
        rw [hi']
        exact mul_le_of_le_one_left hD.le (pow_le_one₀ (by norm_num) (by norm_num))
      obtain ⟨stop, _, _, rho, md, D, -, -, hr, -, hn⟩ := trStep_now h1
      have hD' := hn _ rfl
      rw [← hD'] at hr
      rw [trRadius_shrinks hr h2 hpos hle, hi']
      ring
  by_contra hk
  obtain ⟨h1, h2⟩ := hstep N (by omega)
  have hN' := key N (by omega)
  obtain ⟨a1, a2, a3⟩ := hat N (by omega)
  obtain ⟨r, hr, -, -, hgrow⟩ := hacc (σ N) a1 a2 a3 (by rw [hN']; positivity) (by rw [hN']; exact hN)
    (by
      refine le_trans ?_ hB
      rw [hN']
      exact mul_le_of_le_one_left hD.le (pow_le_one₀ (by norm_num) (by norm_num)))
  rw [h1] at hr
  cases hr
  exact absurd (hgrow _ rfl) (not_le.2 h2)

/-- Without regularisation an accepted proposal lowers the cost. -/
theorem accept_lowers {c : TRCfg ℝ} {pb : Prob ℝ P E} {x : P} {fx fxProp rho : ℝ} {g eta Heta : E}
    {md : Bool} (h : trRatio c pb x fx g fxProp eta Heta = .ok (rho, md))
    (hreg : c.rhoRegularization = 0) (hrho : 0 ≤ c.rhoPrime) (ha : trAccept c rho md = true) :
    fxProp < fx := by
  have hz : rhoReg c fx = 0 := by simp [rhoReg, PyNum.mul, hreg]
  simp only [trAccept, Bool.and_eq_true, PyNum.lt, decide_eq_true_eq] at ha
  obtain ⟨hmd, hr⟩ := ha
  unfold trRatio at h
  simp only [hz] at h
  generalize add (sub (neg (pb.M.inner x g eta)) (mul (lit (1 / 2)) (pb.M.inner x eta Heta))) (0 : ℝ)
    = den at h
  by_cases hden : den = 0
  · have : div (add (sub fx fxProp) (0 : ℝ)) den = .error .zeroDivision := by
      change (if _ = (0 : ℝ) then _ else _) = _
      rw [if_pos hden]
    rw [this] at h
    simp only [Except.ok.injEq, Prod.mk.injEq] at h
    have : rho = 0 := h.1.symm
    linarith
  · have : div (add (sub fx fxProp) (0 : ℝ)) den = .ok ((fx - fxProp + 0) / den) := by
      change (if _ = (0 : ℝ) then _ else _) = _
      rw [if_neg hden]
      rfl
    rw [this] at h
    simp only [Except.ok.injEq, Prod.mk.injEq] at h
    obtain ⟨h1, h2⟩ := h
    rw [hmd] at h2
    simp only [PyNum.le, PyNum.lit, Rat.cast_zero, decide_eq_true_eq] at h2
    have hd : 0 < den := lt_of_le_of_ne h2 (Ne.symm hden)
    have : 0 < rho * den := mul_pos (by linarith) hd
    rw [← h1, div_mul_cancel₀ _ hden] at this
    linarith

/-- **C113** With `rho_regularization = 0` and `0 ≤ rho_prime < 1/4`, from a point where the gradient
does not vanish: after finitely many iterations the cost is strictly below the initial one, and so is
the cost of the returned point. -/
theorem C113_progress {cfg : Cfg ℝ} {c : TRCfg ℝ} {pb : Prob ℝ P E} {clk : Clock ℝ}
    {eta0 : ℤ → E} {mininner maxinner : ℤ} {DeltaBar : ℝ} {x : P} (hx : LocalOps pb x)
    (hs : HasSlope pb.cost pb.M x (pb.M.neg (pb.precon x (pb.grad x))) (pb.cost x)
      (-pb.M.inner x (pb.precon x (pb.grad x)) (pb.grad x)))
    (hrand : c.useRand = false) (hmax : 1 ≤ maxinner) (hrho0 : 0 ≤ c.rhoPrime)
    (hrho : c.rhoPrime < 1 / 4) (hreg : c.rhoRegularization = 0) {Delta : ℝ} (hD : 0 < Delta)
    (hB : Delta ≤ DeltaBar) :
    ∃ N : ℕ, (∀ t, Reaches (trStep cfg c pb clk eta0 mininner maxinner DeltaBar)
        (trInit pb x Delta) t → (N : ℤ) ≤ t.iteration → t.fx < pb.cost x) ∧
      ∀ res, Runs (trStep cfg c pb clk eta0 mininner maxinner DeltaBar) (trInit pb x Delta)
        (.ok res) → (N : ℤ) ≤ res.1.iterations → res.1.cost < pb.cost x := by
  obtain ⟨Ds, hDs, hacc⟩ := C113_accepts (cfg := cfg) (clk := clk) (eta0 := eta0)
    (mininner := mininner) (DeltaBar := DeltaBar) hx hs hrand hmax (by linarith) hreg.ge
  obtain ⟨N, hN⟩ := exists_pow_lt_of_lt_one (div_pos hDs hD) (by norm_num : (1 / 4 : ℝ) < 1)
  rw [lt_div_iff₀ hD] at hN
  -- before progress is made the radius has been quartered in every iteration
  let Inv : TRState ℝ P E → Prop := fun t => t.fx < pb.cost x ∨
    ∃ i : ℕ, i ≤ N ∧ t.iteration = i ∧ t.x = x ∧ t.fx = pb.cost x ∧ t.fgradx = pb.grad x ∧
      t.Delta = (1 / 4) ^ i * Delta
  let Post : TRState ℝ P E → Ctl (TRState ℝ P E) (Result ℝ P × List (P × ℝ × ℝ)) → Prop :=
    fun s r => (TRNow r).2 < pb.cost x ∨ (TRNow r).2 = pb.cost x ∧
      ∃ i : ℕ, i < N ∧ s.iteration = i ∧ ∀ s', r = .next s' → s'.x = x ∧ s'.fgradx = pb.grad x ∧
        s'.iteration = (i + 1 : ℕ) ∧ s'.Delta = (1 / 4) ^ (i + 1) * Delta
  have step : ∀ s r, Inv s → trStep cfg c pb clk eta0 mininner maxinner DeltaBar s = .ok r →
      Post s r := by
    intro s r hinv hst
    obtain ⟨o, eta, Heta, rho, md, D, h1, h2, h3, h4, h5⟩ := trStep_inv hst
    have hnow : TRNow r = ((trAfter pb s (trAccept c rho md) eta D).x,
        (trAfter pb s (trAccept c rho md) eta D).fx) := by
      rcases h5 with ⟨-, rfl⟩ | ⟨_, -, rfl⟩ <;> rfl
    rw [trAfter_x] at hnow
    by_cases ha : trAccept c rho md = true
    · have hl := accept_lowers h3 hreg hrho0 ha
      left
      rw [hnow, if_pos ha]
      rcases hinv with h | ⟨i, -, -, -, hf, -⟩
      · exact hl.trans h
      · exact hf ▸ hl
    · rw [if_neg ha] at hnow
      rcases hinv with h | ⟨i, hi, hit, hxx, hf, hg, hΔ⟩
      · left
        rw [hnow]
        exact h
      · right
        have hpos : 0 < s.Delta := by rw [hΔ]; positivity
        have hle : s.Delta ≤ DeltaBar := by
          refine le_trans ?_ hB
          rw [hΔ]
          exact mul_le_of_le_one_left hD.le (pow_le_one₀ (by norm_num) (by norm_num))
        refine ⟨by rw [hnow]; exact hf, i, ?_, hit, ?_⟩
        · refine lt_of_le_of_ne hi fun hiN => ?_
          obtain ⟨r', hr', hlow, -, -⟩ := hacc s hxx hf hg hpos (by rw [hΔ, hiN]; exact hN) hle
          rw [hst] at hr'
          cases hr'
          rw [hnow] at hlow
          exact lt_irrefl _ hlow
        · intro s' hs'
          rcases h5 with ⟨-, h6⟩ | ⟨_, -, h6⟩
          · rw [h6] at hs'
            cases hs'
            have hD4 : D = s.Delta / 4 := by
              unfold trRadius at h4
              have hsh : (lt rho (lit (1 / 4)) || !md || isnan rho) = true := by
                by_contra hc
                simp only [PyNum.lt, PyNum.lit, PyNum.isnan, Bool.or_false, Bool.or_eq_true,
                  decide_eq_true_eq, Bool.not_eq_true', not_or, not_lt, Bool.not_eq_false] at hc
                refine ha ?_
                simp only [trAccept, PyNum.lt, hc.2, Bool.true_and, decide_eq_true_eq]
                have := hc.1
                norm_num at this
                linarith
              rw [if_pos hsh] at h4
              change (if _ = (0 : ℝ) then _ else _) = _ at h4
              rw [if_neg (by simp [PyNum.lit])] at h4
              cases h4
              simp [PyNum.lit]
            have hfa : trAccept c rho md = false := by simpa using ha
            simp only [trAfter, hfa, Bool.false_eq_true, if_false]
            refine ⟨hxx, hg, ?_, ?_⟩
            · rw [hit]; push_cast; ring
            · rw [hD4, hΔ]; ring
          · rw [h6] at hs'
            cases hs'
  have hnext : ∀ s s', Inv s → trStep cfg c pb clk eta0 mininner maxinner DeltaBar s =
      .ok (.next s') → Inv s' := by
    intro s s' hinv hst
    rcases step s _ hinv hst with h | ⟨hf, i, hi, hit, h⟩
    · exact Or.inl h
    · obtain ⟨a1, a2, a3, a4⟩ := h s' rfl
      exact Or.inr ⟨i + 1, by omega, a3, a1, hf, a2, a4⟩
  have hinit : Inv (trInit pb x Delta) :=
    Or.inr ⟨0, Nat.zero_le _, rfl, rfl, rfl, rfl, by simp [trInit]⟩
  refine ⟨N + 1, fun t ht hit => ?_, fun res hres hit => ?_⟩
  · rcases ht.invariant Inv hnext hinit with h | ⟨i, hi, h1, -⟩
    · exact h
    · exfalso
      push_cast at hit
      omega
  · have hP : res.1.cost < pb.cost x ∨ res.1.iterations ≤ N := by
      refine hres.invariant Inv (fun r => r.1.cost < pb.cost x ∨ r.1.iterations ≤ (N : ℤ)) hnext ?_ hinit
      intro s r hinv hst
      rcases step s _ hinv hst with h | ⟨-, i, hi, hit, -⟩
      · exact Or.inl h
      · right
        obtain ⟨o, eta, Heta, rho, md, D, -, -, -, -, ⟨-, h6⟩ | ⟨_, -, h6⟩⟩ := trStep_inv hst
        · cases h6
        · cases h6
          change s.iteration + 1 ≤ N
          omega
    rcases hP with h | h
    · exact h
    · exfalso
      push_cast at hit
      omega

/-- Trust regions makes progress from every point with nonzero gradient norm: a proposal in a small
enough region is accepted, lowers the cost and does not shrink the region; and without regularisation
the result of every long enough run has a smaller cost than the initial point. -/
structure TRDescends (pb : Prob ℝ P E) (On : P → Prop) : Prop where
  accepts : ∀ x, On x → pb.M.norm x (pb.grad x) ≠ 0 → ∀ (cfg : Cfg ℝ) (c : TRCfg ℝ) (clk : Clock ℝ)
    (eta0 : ℤ → E) (mininner maxinner : ℤ) (DeltaBar : ℝ), c.useRand = false → 1 ≤ maxinner →
    c.rhoPrime < 1 → 0 ≤ c.rhoRegularization →
    ∃ Dstar : ℝ, 0 < Dstar ∧ ∀ s : TRState ℝ P E, s.x = x → s.fx = pb.cost x →
      s.fgradx = pb.grad x → 0 < s.Delta → s.Delta < Dstar → s.Delta ≤ DeltaBar →
      ∃ r, trStep cfg c pb clk eta0 mininner maxinner DeltaBar s = .ok r ∧
        (TRNow r).2 < s.fx ∧ (TRNow r).2 = pb.cost (TRNow r).1 ∧
        ∀ s', r = .next s' → s.Delta ≤ s'.Delta
  progress : ∀ x, On x → pb.M.norm x (pb.grad x) ≠ 0 → ∀ (cfg : Cfg ℝ) (c : TRCfg ℝ) (clk : Clock ℝ)
    (eta0 : ℤ → E) (mininner maxinner : ℤ) (DeltaBar Delta : ℝ), c.useRand = false → 1 ≤ maxinner →
    0 ≤ c.rhoPrime → c.rhoPrime < 1 / 4 → c.rhoRegularization = 0 → 0 < Delta → Delta ≤ DeltaBar →
    ∃ N : ℕ, ∀ res, Runs (trStep cfg c pb clk eta0 mininner maxinner DeltaBar) (trInit pb x Delta)
      (.ok res) → (N : ℤ) ≤ res.1.iterations → res.1.cost < pb.cost x

/-- **C113** for problems with a right gradient, the default preconditioner and an inner product. -/
theorem C113_descends {pb : Prob ℝ P E} {On : P → Prop} {Tan : P → E → Prop}
    (hpb : FirstOrder pb On Tan) (hpre : ∀ x v, pb.precon x v = v)
    (hx : ∀ x, On x → pb.M.norm x (pb.grad x) ≠ 0 → LocalOps pb x) : TRDescends pb On := by
  have hs : ∀ x, On x → HasSlope pb.cost pb.M x (pb.M.neg (pb.precon x (pb.grad x))) (pb.cost x)
      (-pb.M.inner x (pb.precon x (pb.grad x)) (pb.grad x)) := by
    intro x hx
    have hg := hpb.grad x hx
    have hg' := hpb.neg x _ hx hg
    rw [hpre]
    refine ⟨hpb.start x _ hx hg', ?_⟩
    have := hpb.slope x _ hx hg'
    rwa [hpb.innerNeg x _ hx hg] at this
  refine ⟨fun x h hn cfg c clk eta0 mininner maxinner DeltaBar h1 h2 h3 h4 =>
    C113_accepts (hx x h hn) (hs x h) h1 h2 h3 h4,
    fun x h hn cfg c clk eta0 mininner maxinner DeltaBar Delta h1 h2 h3 h4 h5 h6 h7 => ?_⟩
  obtain ⟨N, -, hN⟩ := C113_progress (cfg := cfg) (c := c) (clk := clk) (eta0 := eta0)
    (mininner := mininner) (hx x h hn) (hs x h) h1 h2 h3 h4 h5 h6 h7
  exact ⟨N, hN⟩

/-- Hypotheses of C113 at the point `1` for `f(x) = x ^ 2`. -/
example : LocalOps realSquare 1 ∧ HasSlope realSquare.cost realSquare.M 1
    (realSquare.M.neg (realSquare.precon 1 (realSquare.grad 1))) (realSquare.cost 1)
    (-realSquare.M.inner 1 (realSquare.precon 1 (realSquare.grad 1)) (realSquare.grad 1)) := by
  refine ⟨⟨?_, ?_, ?_, ?_, ?_⟩, ⟨by simp [realSquare, trialPoint, realMfd], ?_⟩⟩
  · intro a; simp [realSquare, realMfd]
  · intro a; simp [realSquare, realMfd]
  · intro a; simp only [realSquare, realMfd]; ring
  · intro a b; simp only [realSquare, realMfd]; ring
  · norm_num [realSquare, realMfd]
  · have h : HasDerivAt (fun a : ℝ => (1 + a * -2) ^ 2) (-4) 0 := by
      have := (((hasDerivAt_id (0 : ℝ)).mul_const (-2)).const_add 1).pow 2
      have e : ((2 : ℕ) : ℝ) * (1 + id (0 : ℝ) * -2) ^ (2 - 1) * (1 * -2) = -4 := by norm_num
      rw [e] at this
      exact this
    convert h using 1
    · norm_num [realSquare, realMfd, trialPoint]
    · norm_num [realSquare, realMfd]

end Verif.Opt
