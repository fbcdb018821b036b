/-
C158 for trust regions: with `rho_regularization=0` the cost may be shifted, with `theta=0` also
rescaled, without any effect on the points, the radii and the numbers of iterations.
-/
import Verif.Opt.Props.CostUnits

namespace Verif.Opt
open PyNum

variable {P E : Type*} {a b : ℝ} {pb : Prob ℝ P E}

private def TCGState.inUnits (a : ℝ) (M : Mfd ℝ P E) (s : TCGState ℝ E) : TCGState ℝ E :=
  { eta := s.eta, Heta := M.smul a s.Heta, r := M.smul a s.r, ePe := s.ePe, zr := a ^ 2 * s.zr,
    dPd := a ^ 2 * s.dPd, delta := M.smul a s.delta, ePd := a * s.ePd,
    modelValue := a * s.modelValue }

/-- What the inner loop returns, in the new units: the step is the same. -/
def TCGOut.inUnits (a : ℝ) (M : Mfd ℝ P E) (o : TCGOut E) : TCGOut E :=
  { o with Heta := M.smul a o.Heta }

/-- Hessians are homogeneous. -/
def HessScales (pb : Prob ℝ P E) : Prop :=
  ∀ y t v, pb.hess y (pb.M.smul t v) = pb.M.smul t (pb.hess y v)

private theorem sqrt_units (ha : 0 < a) (u : ℝ) : PyNum.sqrt (a ^ 2 * u) = a * PyNum.sqrt u := by
  simp only [PyNum.sqrt]
  rw [Real.sqrt_mul (by positivity), Real.sqrt_sq ha.le]

private theorem inner_units' {M : Mfd ℝ P E} (h : ScaleOps M) (a : ℝ) (y : P) (u v : E) :
    M.inner y (M.smul a u) (M.smul a v) = a ^ 2 * M.inner y u v := by
  rw [h.inner_left, h.inner_right]
  ring

private theorem modelFun_units (h : ScaleOps pb.M) (x : P) (g eta Heta : E) :
    modelFun (pb.inUnits a b) x (pb.M.smul a g) eta (pb.M.smul a Heta) =
      a * modelFun pb x g eta Heta := by
  simp only [modelFun, Prob.inUnits, h.inner_right, PyNum.add, PyNum.mul]
  ring

private theorem tcgBody_units (h : ScaleOps pb.M) (hP : PreconScales pb) (hH : HessScales pb)
    (ha : 0 < a) {c : TRCfg ℝ} (hth : a = 1 ∨ c.theta = 0) {x : P} {g : E} {Delta normr0 : ℝ}
    {mininner : ℤ} {j : ℕ} {s : TCGState ℝ E} :
    tcgBody c (pb.inUnits a b) x (pb.M.smul a g) Delta (a * normr0) mininner j
        (s.inUnits a pb.M) =
      (tcgBody c pb x g Delta normr0 mininner j s).map
        (Ctl.map (TCGState.inUnits a pb.M) (TCGOut.inUnits a pb.M)) := by
  have h2 : a ^ 2 ≠ 0 := by positivity
  have h3 : a ^ 3 ≠ 0 := by positivity
  have h3' : 0 < a ^ 3 := by positivity
  have eH : (pb.inUnits a b).hess x (s.inUnits a pb.M).delta =
      pb.M.smul (a ^ 2) (pb.hess x s.delta) := by
    simp only [Prob.inUnits, TCGState.inUnits, hH x, h.smul_smul]
    congr 1
    ring
  have ed : pb.M.inner x (pb.M.smul a s.delta) (pb.M.smul (a ^ 2) (pb.hess x s.delta)) =
      a ^ 3 * pb.M.inner x s.delta (pb.hess x s.delta) := by
    rw [h.inner_left, h.inner_right]
    ring
  have hle0 : ∀ u : ℝ, PyNum.le (a ^ 3 * u) (lit 0) = PyNum.le u (lit 0) := fun u => by
    have := units_le h3' u 0
    rw [mul_zero] at this
    simpa only [PyNum.lit, Rat.cast_zero] using this
  have hne : ne0 (a ^ 3 * pb.M.inner x s.delta (pb.hess x s.delta)) =
      ne0 (pb.M.inner x s.delta (pb.hess x s.delta)) := by
    simp only [ne0, hle0, units_le0 h3']
  have ea : ∀ t, pb.M.smul (a⁻¹ * t) (pb.M.smul a s.delta) = pb.M.smul t s.delta := fun t => by
    rw [h.smul_smul]
    congr 1
    field_simp
  have eb : ∀ t, pb.M.smul (a⁻¹ * t) (pb.M.smul (a ^ 2) (pb.hess x s.delta)) =
      pb.M.smul a (pb.M.smul t (pb.hess x s.delta)) := fun t => by
    rw [h.smul_smul, h.smul_smul]
    congr 1
    field_simp
  have hpow : PyNum.pow (a * normr0) c.theta = PyNum.pow normr0 c.theta := by
    rcases hth with rfl | h0
    · rw [one_mul]
    · simp only [PyNum.pow, h0, Real.rpow_zero]
  have ez : ∀ r, (if c.useRand then pb.M.smul a r else pb.precon x (pb.M.smul a r)) =
      pb.M.smul a (if c.useRand then r else pb.precon x r) := fun r => by
    split
    · rfl
    · exact hP x a r
  have hM : (pb.inUnits a b).M = pb.M := rfl
  have hpc : (pb.inUnits a b).precon = pb.precon := rfl
  simp only [tcgBody, eH, hM, hpc]
  simp only [TCGState.inUnits, ed]
  generalize hp1 : (if ne0 (a ^ 3 * pb.M.inner x s.delta (pb.hess x s.delta)) = true then _ else _ :
    Except PyErr (ℝ × ℝ)) = pre'
  generalize hp2 : (if ne0 (pb.M.inner x s.delta (pb.hess x s.delta)) = true then _ else _ :
    Except PyErr (ℝ × ℝ)) = pre
  obtain rfl : pre' = pre.map fun q => (a⁻¹ * q.1, q.2) := by
    rw [← hp1, ← hp2]
    rw [hne]
    split
    · rw [units_div h3]
      cases PyNum.div s.zr (pb.M.inner x s.delta (pb.hess x s.delta)) with
      | error e => rfl
      | ok alpha =>
        simp only [Except.map, PyNum.add, PyNum.mul, PyNum.pow, PyNum.lit, Rat.cast_ofNat,
          Real.rpow_two, Except.ok.injEq, Prod.mk.injEq]
        constructor <;> field_simp
    · simp [Except.map, PyNum.lit]
  clear hp1 hp2
  match pre with
  | .error e => rfl
  | .ok (alpha, ePeNew) =>
    simp only [Except.map, ea, eb, h.add, modelFun_units h, hle0, units_le ha, inner_units' h,
      sqrt_units ha, hpow, ez, units_div_same h2]
    by_cases hc : (PyNum.le (pb.M.inner x s.delta (pb.hess x s.delta)) (lit 0) ||
        PyNum.le (PyNum.pow Delta (lit 2)) ePeNew) = true
    · simp only [hc, if_true]
      have et : (PyNum.add (PyNum.neg (a * s.ePd)) (PyNum.sqrt (PyNum.add
            (PyNum.mul (a * s.ePd) (a * s.ePd))
            (PyNum.mul (a ^ 2 * s.dPd) (PyNum.sub (PyNum.pow Delta (lit 2)) s.ePe)))) : ℝ) =
          a * PyNum.add (PyNum.neg s.ePd) (PyNum.sqrt (PyNum.add (PyNum.mul s.ePd s.ePd)
            (PyNum.mul s.dPd (PyNum.sub (PyNum.pow Delta (lit 2)) s.ePe)))) := by
        have : (PyNum.add (PyNum.mul (a * s.ePd) (a * s.ePd))
            (PyNum.mul (a ^ 2 * s.dPd) (PyNum.sub (PyNum.pow Delta (lit 2)) s.ePe)) : ℝ) =
            a ^ 2 * PyNum.add (PyNum.mul s.ePd s.ePd)
              (PyNum.mul s.dPd (PyNum.sub (PyNum.pow Delta (lit 2)) s.ePe)) := by
          simp only [PyNum.add, PyNum.mul]
          ring
        rw [this, sqrt_units ha]
        simp only [PyNum.add, PyNum.neg]
        ring
      have e2 : a / a ^ 2 = a⁻¹ := by field_simp
      rw [et, units_div h2, e2]
      cases PyNum.div (PyNum.add (PyNum.neg s.ePd) (PyNum.sqrt (PyNum.add (PyNum.mul s.ePd s.ePd)
            (PyNum.mul s.dPd (PyNum.sub (PyNum.pow Delta (lit 2)) s.ePe))))) s.dPd with
      | error e => rfl
      | ok tau =>
        simp only [Except.map, ea, eb, h.add]
        rfl
    · simp only [hc]
      by_cases hm : PyNum.le s.modelValue (modelFun pb x g
          (pb.M.add s.eta (pb.M.smul alpha s.delta))
          (pb.M.add s.Heta (pb.M.smul alpha (pb.hess x s.delta)))) = true
      · simp only [hm, if_true]
        rfl
      · simp only [hm]
        have ek : ∀ u k : ℝ, PyNum.le (a * u) (PyNum.mul (a * normr0) k) =
            PyNum.le u (PyNum.mul normr0 k) := fun u k => by
          rw [← units_le ha u]
          congr 1
          simp only [PyNum.mul]
          ring
        simp only [ek]
        by_cases hk : (decide (mininner ≤ (j : ℤ)) &&
            PyNum.le (PyNum.sqrt (pb.M.inner x (pb.M.add s.r (pb.M.smul alpha (pb.hess x s.delta)))
              (pb.M.add s.r (pb.M.smul alpha (pb.hess x s.delta)))))
              (PyNum.mul normr0 (pymin (PyNum.pow normr0 c.theta) c.kappa))) = true
        · simp only [hk, if_true]
          rfl
        · simp only [hk]
          cases PyNum.div (pb.M.inner x (if c.useRand = true then
            pb.M.add s.r (pb.M.smul alpha (pb.hess x s.delta)) else
            pb.precon x (pb.M.add s.r (pb.M.smul alpha (pb.hess x s.delta))))
            (pb.M.add s.r (pb.M.smul alpha (pb.hess x s.delta)))) s.zr with
          | error e => rfl
          | ok beta =>
            have e5 : ∀ v w, pb.M.toTangent x (pb.M.add (pb.M.neg (pb.M.smul a v))
                (pb.M.smul beta (pb.M.smul a w))) =
                pb.M.smul a (pb.M.toTangent x (pb.M.add (pb.M.neg v) (pb.M.smul beta w))) := by
              intro v w
              have : pb.M.smul beta (pb.M.smul a w) = pb.M.smul a (pb.M.smul beta w) := by
                rw [h.smul_smul, h.smul_smul, mul_comm]
              rw [h.neg, this, h.add, h.toTangent]
            simp only [e5, Ctl.map, TCGState.inUnits]
            simp only [Bool.false_eq_true, if_false, Except.ok.injEq, Ctl.next.injEq,
              TCGState.mk.injEq, true_and, PyNum.add, PyNum.mul]
            refine ⟨?_, ?_⟩
            · ring
            · have : a⁻¹ * alpha * (a ^ 2 * s.dPd) = a * (alpha * s.dPd) := by field_simp
              rw [this]
              exact ⟨by ring, trivial⟩

private theorem tcgLoop_units (h : ScaleOps pb.M) (hP : PreconScales pb) (hH : HessScales pb)
    (ha : 0 < a) {c : TRCfg ℝ} (hth : a = 1 ∨ c.theta = 0) {x : P} {g : E} {Delta normr0 : ℝ}
    {mininner : ℤ} (n j : ℕ) {s : TCGState ℝ E} :
    tcgLoop c (pb.inUnits a b) x (pb.M.smul a g) Delta (a * normr0) mininner n j
        (s.inUnits a pb.M) =
      (tcgLoop c pb x g Delta normr0 mininner n j s).map (TCGOut.inUnits a pb.M) := by
  induction n generalizing j s with
  | zero => cases j <;> rfl
  | succ n ih =>
    have e := tcgBody_units h hP hH ha hth (b := b) (x := x) (g := g) (Delta := Delta)
      (normr0 := normr0) (mininner := mininner) (j := j) (s := s)
    rw [tcgLoop, tcgLoop, e]
    match tcgBody c pb x g Delta normr0 mininner j s with
    | .error e => rfl
    | .ok (.brk o) => rfl
    | .ok (.next s') => exact ih _

private theorem tcgInit_units (h : ScaleOps pb.M) (hP : PreconScales pb) (c : TRCfg ℝ)
    (x : P) (g eta : E) :
    tcgInit c (pb.inUnits a b) x (pb.M.smul a g) eta =
      (tcgInit c pb x g eta).inUnits a pb.M := by
  simp only [tcgInit]
  by_cases hc : c.useRand = true
  · have hm := modelFun_units (a := a) (b := b) h x g eta (pb.hess x eta)
    have hh : (pb.inUnits a b).hess x eta = pb.M.smul a (pb.hess x eta) := rfl
    have hM : (pb.inUnits a b).M = pb.M := rfl
    simp only [hc, if_true, TCGState.inUnits, hh, hM, h.add, h.neg, inner_units' h, h.inner_right,
      hm]
  · simp only [hc, TCGState.inUnits, Prob.inUnits, hP x, h.neg, inner_units' h]
    simp [PyNum.lit, h.zeroVector]

/-- **C158** (trust-region subproblem): the same step, with the same number of inner iterations
and the same reason for stopping. -/
theorem C158_tcg (h : ScaleOps pb.M) (hP : PreconScales pb) (hH : HessScales pb)
    (ha : 0 < a) {c : TRCfg ℝ} (hth : a = 1 ∨ c.theta = 0) {x : P} {g eta : E} {Delta : ℝ}
    {mininner maxinner : ℤ} :
    tcg c (pb.inUnits a b) x (pb.M.smul a g) eta Delta mininner maxinner =
      (tcg c pb x g eta Delta mininner maxinner).map (TCGOut.inUnits a pb.M) := by
  have e : (pb.inUnits a b).M.inner x ((tcgInit c pb x g eta).inUnits a pb.M).r
      ((tcgInit c pb x g eta).inUnits a pb.M).r =
      a ^ 2 * pb.M.inner x (tcgInit c pb x g eta).r (tcgInit c pb x g eta).r :=
    inner_units' h a x _ _
  simp only [tcg, tcgInit_units h hP, e, sqrt_units ha]
  exact tcgLoop_units h hP hH ha hth _ _

private theorem cauchy_units (h : ScaleOps pb.M) (hH : HessScales pb) (ha : 0 < a) {x : P} {g : E}
    {fx normGrad Delta : ℝ} {o : TCGOut E} :
    cauchy (pb.inUnits a b) x (a * fx + b) (pb.M.smul a g) (a * normGrad) Delta
        (o.inUnits a pb.M) =
      (cauchy pb x fx g normGrad Delta o).map fun q => (q.1, pb.M.smul a q.2) := by
  have h3 : a ^ 3 ≠ 0 := by positivity
  have h3' : 0 < a ^ 3 := by positivity
  have eH : (pb.inUnits a b).hess x (pb.M.smul a g) = pb.M.smul (a ^ 2) (pb.hess x g) := by
    simp only [Prob.inUnits, hH x, h.smul_smul]
    congr 1
    ring
  have hM : (pb.inUnits a b).M = pb.M := rfl
  have ed : pb.M.inner x (pb.M.smul a g) (pb.M.smul (a ^ 2) (pb.hess x g)) =
      a ^ 3 * pb.M.inner x g (pb.hess x g) := by
    rw [h.inner_left, h.inner_right]
    ring
  have hle0 : ∀ u : ℝ, PyNum.le (a ^ 3 * u) (lit 0) = PyNum.le u (lit 0) := fun u => by
    have := units_le h3' u 0
    rw [mul_zero] at this
    simpa only [PyNum.lit, Rat.cast_zero] using this
  have e1 : (PyNum.pow (a * normGrad) (lit 3) : ℝ) = a ^ 3 * PyNum.pow normGrad (lit 3) := by
    have : ((3 : ℚ) : ℝ) = ((3 : ℕ) : ℝ) := by norm_num
    simp only [PyNum.pow, PyNum.lit, this, Real.rpow_natCast]
    ring
  have e2 : ∀ u : ℝ, PyNum.mul Delta (a ^ 3 * u) = a ^ 3 * PyNum.mul Delta u := fun u => by
    simp only [PyNum.mul]; ring
  simp only [cauchy, eH, hM, ed, hle0, e1, e2, units_div_same h3]
  generalize (if PyNum.le (pb.M.inner x g (pb.hess x g)) (lit 0) = true then _ else _ :
    Except PyErr ℝ) = tauC
  cases tauC with
  | error e => rfl
  | ok tauC =>
    have e3 := units_div (s := 1) ha.ne' (PyNum.mul (PyNum.neg tauC) Delta) normGrad
    rw [one_mul] at e3
    simp only [e3]
    cases PyNum.div (PyNum.mul (PyNum.neg tauC) Delta) normGrad with
    | error e => rfl
    | ok t =>
      have e4 : pb.M.smul (1 / a * t) (pb.M.smul a g) = pb.M.smul t g := by
        rw [h.smul_smul]
        congr 1
        field_simp
      have e5 : pb.M.smul (1 / a * t) (pb.M.smul (a ^ 2) (pb.hess x g)) =
          pb.M.smul a (pb.M.smul t (pb.hess x g)) := by
        rw [h.smul_smul, h.smul_smul]
        congr 1
        field_simp
      have e6 : ∀ u v : ℝ, (PyNum.add (PyNum.add (a * fx + b) (a * u))
          (PyNum.mul (lit (1 / 2)) (a * v)) : ℝ) =
          a * PyNum.add (PyNum.add fx u) (PyNum.mul (lit (1 / 2)) v) + b := fun u v => by
        simp only [PyNum.add, PyNum.mul]; ring
      simp only [Except.map, TCGOut.inUnits, e4, e5, h.inner_left _ a, e6, units_lt' ha]
      split_ifs <;> rfl

private def TRState.inUnits (a b : ℝ) (M : Mfd ℝ P E) (s : TRState ℝ P E) : TRState ℝ P E :=
  { iteration := s.iteration, x := s.x, fx := a * s.fx + b, fgradx := M.smul a s.fgradx,
    normGrad := a * s.normGrad, Delta := s.Delta, evals := s.evals,
    history := s.history.map fun q => (q.1, a * q.2.1 + b, q.2.2) }

private theorem trRatio_units (h : ScaleOps pb.M) (ha : 0 < a) {c : TRCfg ℝ}
    (hreg : c.rhoRegularization = 0) {x : P} {fx fxProp : ℝ} {g eta Heta : E} :
    trRatio c (pb.inUnits a b) x (a * fx + b) (pb.M.smul a g) (a * fxProp + b) eta
        (pb.M.smul a Heta) =
      trRatio c pb x fx g fxProp eta Heta := by
  have hr : ∀ f, rhoReg c f = 0 := fun f => by simp [rhoReg, PyNum.mul, hreg]
  have e1 : (PyNum.add (PyNum.sub (a * fx + b) (a * fxProp + b)) 0 : ℝ) =
      a * PyNum.add (PyNum.sub fx fxProp) 0 := by
    simp only [PyNum.add, PyNum.sub]; ring
  have e2 : ∀ u v : ℝ, (PyNum.add (PyNum.sub (PyNum.neg (a * u))
      (PyNum.mul (lit (1 / 2)) (a * v))) 0 : ℝ) =
      a * PyNum.add (PyNum.sub (PyNum.neg u) (PyNum.mul (lit (1 / 2)) v)) 0 := fun u v => by
    simp only [PyNum.add, PyNum.sub, PyNum.neg, PyNum.mul]; ring
  have hM : (pb.inUnits a b).M = pb.M := rfl
  simp only [trRatio, hr, hM, h.inner_left, h.inner_right, e1, e2, units_le0 ha,
    units_div_same ha.ne']

private theorem trStep_units (h : ScaleOps pb.M) (hP : PreconScales pb) (hH : HessScales pb)
    (ha : 0 < a) {c : TRCfg ℝ} (hth : a = 1 ∨ c.theta = 0) (hreg : c.rhoRegularization = 0)
    {cfg : Cfg ℝ} {clk : Clock ℝ} {eta0 : ℤ → E} {mi ma : ℤ} {DB : ℝ} (s : TRState ℝ P E) :
    trStep (cfg.inUnits a) c (pb.inUnits a b) clk eta0 mi ma DB (s.inUnits a b pb.M) =
      (trStep cfg c pb clk eta0 mi ma DB s).map
        (Ctl.map (TRState.inUnits a b pb.M) fun q =>
          (q.1.inUnits a b, q.2.map fun q => (q.1, a * q.2.1 + b, q.2.2))) := by
  have hM : (pb.inUnits a b).M = pb.M := rfl
  have hcost : ∀ y, (pb.inUnits a b).cost y = a * pb.cost y + b := fun _ => rfl
  have hgrad : ∀ y, (pb.inUnits a b).grad y = pb.M.smul a (pb.grad y) := fun _ => rfl
  simp only [trStep, hM, hcost, hgrad]
  simp only [TRState.inUnits, C158_tcg h hP hH ha hth]
  generalize (if c.useRand = true then eta0 (s.iteration + 1) else pb.M.zeroVector s.x) = eta
  cases tcg c pb s.x s.fgradx eta s.Delta mi ma with
  | error e => rfl
  | ok o =>
    simp only [Except.map]
    have ec : (if c.useRand = true then
          cauchy (pb.inUnits a b) s.x (a * s.fx + b) (pb.M.smul a s.fgradx) (a * s.normGrad)
            s.Delta (o.inUnits a pb.M)
        else Except.ok ((o.inUnits a pb.M).eta, (o.inUnits a pb.M).Heta)) =
        (if c.useRand = true then cauchy pb s.x s.fx s.fgradx s.normGrad s.Delta o
          else Except.ok (o.eta, o.Heta)).map fun q => (q.1, pb.M.smul a q.2) := by
      split
      · exact cauchy_units h hH ha
      · rfl
    rw [ec]
    generalize (if c.useRand = true then cauchy pb s.x s.fx s.fgradx s.normGrad s.Delta o
          else Except.ok (o.eta, o.Heta)) = q
    match q with
    | .error e => rfl
    | .ok (eta, Heta) =>
      simp only [Except.map, trRatio_units h ha hreg]
      match trRatio c pb s.x s.fx s.fgradx (pb.cost (pb.M.retraction s.x eta)) eta Heta with
      | .error e => rfl
      | .ok (rho, dec) =>
        have eo : (o.inUnits a pb.M).stop = o.stop := rfl
        simp only [eo]
        cases trRadius rho dec o.stop DB s.Delta with
        | error e => rfl
        | ok D =>
          have hc := fun t1 t2 n => checkStop_units ha cfg clk.start t1 t2 (s.iteration + 1)
            (some n) none (-1)
          simp only [Option.map_some] at hc
          dsimp only
          by_cases hacc : trAccept c rho dec = true
          · simp only [hacc, if_true, h.norm_smul _ _ _ ha, hc]
            split
            · simp only [Ctl.map, TRState.inUnits, List.map_append, List.map_cons, List.map_nil]
            · simp only [Ctl.map, Result.inUnits, List.map_append, List.map_cons, List.map_nil,
                initLog_units a b, Option.map_some]
          · rw [Bool.not_eq_true] at hacc
            simp only [hacc, Bool.false_eq_true, if_false, hc]
            split
            · simp only [Ctl.map, TRState.inUnits, List.map_append, List.map_cons, List.map_nil]
            · simp only [Ctl.map, Result.inUnits, List.map_append, List.map_cons, List.map_nil,
                initLog_units a b, Option.map_some]

/-- **C158** (trust regions): with `rho_regularization = 0`, adding a number to the cost changes
nothing but the reported costs, and with `theta = 0` multiplying it by a positive number does not
either; points, radii, numbers of iterations and reasons for stopping are the same. -/
theorem C158_trustRegions_partial {cfg : Cfg ℝ} {c : TRCfg ℝ} {clk : Clock ℝ} {eta0 : ℤ → E}
    {mininner : ℤ} {maxinner : Option ℤ} {typicalDist DeltaBar Delta0 : Option ℝ} {x : P}
    {r' : Except PyErr (Result ℝ P × List (P × ℝ × ℝ))} (h : ScaleOps pb.M)
    (hP : PreconScales pb) (hH : HessScales pb) (ha : 0 < a) (hth : a = 1 ∨ c.theta = 0)
    (hreg : c.rhoRegularization = 0) :
    TRRuns (cfg.inUnits a) c (pb.inUnits a b) clk eta0 mininner maxinner typicalDist DeltaBar
        Delta0 x r' ↔
      ∃ r, TRRuns cfg c pb clk eta0 mininner maxinner typicalDist DeltaBar Delta0 x r ∧
        r' = r.map fun q =>
          (q.1.inUnits a b, q.2.map fun q => (q.1, a * q.2.1 + b, q.2.2)) := by
  unfold TRRuns
  have hM : (pb.inUnits a b).M = pb.M := rfl
  rw [hM]
  cases trRadii pb.M.dim typicalDist DeltaBar Delta0 with
  | error e =>
    constructor
    · rintro rfl
      exact ⟨_, rfl, rfl⟩
    · rintro ⟨r, rfl, rfl⟩
      rfl
  | ok q =>
    obtain ⟨DB, D0⟩ := q
    have hi : trInit (pb.inUnits a b) x D0 = (trInit pb x D0).inUnits a b pb.M := by
      simp only [trInit, TRState.inUnits, Prob.inUnits, h.norm_smul _ _ _ ha, List.map_nil]
    dsimp only
    rw [hi]
    exact Runs.map_iff (TRState.inUnits a b pb.M) _ (fun _ => True) (fun _ _ _ _ => trivial)
      (fun s _ => trStep_units h hP hH ha hth hreg s) trivial

end Verif.Opt
