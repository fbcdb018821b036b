/-
Trust regions, outer loop: C23 (radius), C24 (cost increase bound), C25 (monotone with default
options: false), C26 (NaN proposals), C27 (rejections shrink the radius).
-/
import Verif.Opt.Witness

namespace Verif.Opt
open PyNum

section
variable {F P E : Type*} [PyNum F]

/-- The proposal `(eta, Heta)` of the iteration that starts in state `s`: the solution of the
subproblem, possibly replaced by the Cauchy point. -/
def TRProposal (c : TRCfg F) (pb : Prob F P E) (eta0 : ℤ → E) (mininner maxinner : ℤ)
    (s : TRState F P E) (eta Heta : E) : Prop :=
  ∃ o, tcg c pb s.x s.fgradx (if c.useRand then eta0 (s.iteration + 1) else pb.M.zeroVector s.x)
      s.Delta mininner maxinner = .ok o ∧
    (if c.useRand then cauchy pb s.x s.fx s.fgradx s.normGrad s.Delta o
      else .ok (o.eta, o.Heta)) = .ok (eta, Heta)

/-- Iterate and cost after an iteration, whether the loop goes on or ends. -/
def TRNow : Ctl (TRState F P E) (Result F P × List (P × F × F)) → P × F
  | .next s => (s.x, s.fx)
  | .brk r => (r.1.point, r.1.cost)

omit [PyNum F] in
theorem trAfter_x (pb : Prob F P E) (s : TRState F P E) (a : Bool) (eta : E) (D : F) :
    ((trAfter pb s a eta D).x, (trAfter pb s a eta D).fx) =
      if a then (pb.M.retraction s.x eta, pb.cost (pb.M.retraction s.x eta)) else (s.x, s.fx) := by
  unfold trAfter
  split <;> rfl

omit [PyNum F] in
theorem trAfter_Delta (pb : Prob F P E) (s : TRState F P E) (a : Bool) (eta : E) (D : F) :
    (trAfter pb s a eta D).Delta = D := by
  unfold trAfter
  split <;> rfl

variable {cfg : Cfg F} {c : TRCfg F} {pb : Prob F P E} {clk : Clock F} {eta0 : ℤ → E}
  {mininner maxinner : ℤ} {DeltaBar : F}

/-- An iteration in terms of its proposal, ratio, acceptance and radius. -/
theorem trStep_now {s : TRState F P E}
    {r : Ctl (TRState F P E) (Result F P × List (P × F × F))}
    (h : trStep cfg c pb clk eta0 mininner maxinner DeltaBar s = .ok r) :
    ∃ stop eta Heta rho md Delta,
      TRProposal c pb eta0 mininner maxinner s eta Heta ∧
      trRatio c pb s.x s.fx s.fgradx (pb.cost (pb.M.retraction s.x eta)) eta Heta
        = .ok (rho, md) ∧
      trRadius rho md stop DeltaBar s.Delta = .ok Delta ∧
      TRNow r = (if trAccept c rho md then
        (pb.M.retraction s.x eta, pb.cost (pb.M.retraction s.x eta)) else (s.x, s.fx)) ∧
      ∀ s', r = .next s' → s'.Delta = Delta := by
  obtain ⟨o, eta, Heta, rho, md, Delta, h1, h2, h3, h4, ⟨-, rfl⟩ | ⟨_, -, rfl⟩⟩ := trStep_inv h
  · refine ⟨o.stop, eta, Heta, rho, md, Delta, ⟨o, h1, h2⟩, h3, h4, trAfter_x .., ?_⟩
    rintro s' hs
    cases hs
    exact trAfter_Delta ..
  · exact ⟨o.stop, eta, Heta, rho, md, Delta, ⟨o, h1, h2⟩, h3, h4, trAfter_x .., by
      rintro s' ⟨⟩⟩

theorem TRProposal.unique {s : TRState F P E} {eta Heta eta' Heta' : E}
    (h : TRProposal c pb eta0 mininner maxinner s eta Heta)
    (h' : TRProposal c pb eta0 mininner maxinner s eta' Heta') : eta = eta' ∧ Heta = Heta' := by
  obtain ⟨o, h1, h2⟩ := h
  obtain ⟨o', h1', h2'⟩ := h'
  rw [h1] at h1'
  cases h1'
  rw [h2] at h2'
  cases h2'
  exact ⟨rfl, rfl⟩

/-- **C27** With `rho_prime < 1/4` every iteration either moves to its proposal, or keeps the
iterate and divides the radius by four. -/
theorem C27_rejection_shrinks [LawfulPyNum F] (hrho : lt c.rhoPrime (lit (1 / 4)) = true)
    {s : TRState F P E} {r : Ctl (TRState F P E) (Result F P × List (P × F × F))}
    (h : trStep cfg c pb clk eta0 mininner maxinner DeltaBar s = .ok r) :
    (∃ eta Heta, TRProposal c pb eta0 mininner maxinner s eta Heta ∧
      TRNow r = (pb.M.retraction s.x eta, pb.cost (pb.M.retraction s.x eta))) ∨
    (TRNow r = (s.x, s.fx) ∧ ∃ Delta, div s.Delta (lit 4) = .ok Delta ∧
      ∀ s', r = .next s' → s'.Delta = Delta) := by
  obtain ⟨stop, eta, Heta, rho, md, Delta, hp, hr, hD, hn, hd⟩ := trStep_now h
  by_cases ha : trAccept c rho md = true
  · rw [if_pos ha] at hn
    exact Or.inl ⟨eta, Heta, hp, hn⟩
  · rw [if_neg ha] at hn
    refine Or.inr ⟨hn, Delta, ?_, hd⟩
    unfold trRadius at hD
    split at hD
    · exact hD
    · rename_i hcond
      exfalso
      simp only [Bool.or_eq_true, Bool.not_eq_true', not_or, Bool.not_eq_true,
        Bool.not_eq_false] at hcond
      obtain ⟨⟨h1, h2⟩, h3⟩ := hcond
      apply ha
      unfold trAccept
      rw [h2, Bool.true_and]
      rcases LawfulPyNum.lt_cotrans c.rhoPrime rho (lit (1 / 4)) h3 hrho with h | h
      · exact h
      · rw [h1] at h
        cases h

end

/-! ### Facts about `Num K` -/

section
variable {K : Type*} [NumField K] {P E : Type*}

theorem XF.add_nan_left (a : XF K) : XF.add .nan a = .nan := by cases a <;> rfl
theorem XF.add_nan_right (a : XF K) : XF.add a .nan = .nan := by cases a <;> rfl
theorem XF.mul_nan_right (a : XF K) : XF.mul a .nan = .nan := by cases a <;> rfl
theorem XF.div_nan_left (a : XF K) : XF.div .nan a = .nan := by cases a <;> rfl

theorem Num.div_ok {a b q : Num K} (h : div a b = .ok q) : q.v = a.v.div b.v := by
  simp only [PyNum.div] at h
  split at h
  · cases h
  · cases h; rfl

variable {cfg : Cfg (Num K)} {c : TRCfg (Num K)} {pb : Prob (Num K) P E} {clk : Clock (Num K)}
  {eta0 : ℤ → E} {mininner maxinner : ℤ} {DeltaBar : Num K}

/-- **C26** If the cost at the proposal or either inner product of the predicted decrease is NaN,
the iteration keeps the iterate and its cost, and divides the radius by four. -/
theorem C26_nan_rejected {s : TRState (Num K) P E} {eta Heta : E}
    (hp : TRProposal c pb eta0 mininner maxinner s eta Heta)
    (hnan : (pb.cost (pb.M.retraction s.x eta)).v = .nan ∨
      (pb.M.inner s.x s.fgradx eta).v = .nan ∨ (pb.M.inner s.x eta Heta).v = .nan)
    {r : Ctl (TRState (Num K) P E) (Result (Num K) P × List (P × Num K × Num K))}
    (h : trStep cfg c pb clk eta0 mininner maxinner DeltaBar s = .ok r) :
    TRNow r = (s.x, s.fx) ∧ ∀ s', r = .next s' → div s.Delta (lit 4) = .ok s'.Delta := by
  obtain ⟨stop, eta', Heta', rho, md, Delta, hp', hr, hD, hn, hd⟩ := trStep_now h
  obtain ⟨rfl, rfl⟩ := hp.unique hp'
  have key : md = false ∨ isnan rho = true := by
    rcases hnan with h1 | h1
    · right
      unfold trRatio at hr
      simp only at hr
      split at hr
      · rename_i rho' hdiv
        simp only [Except.ok.injEq, Prod.mk.injEq] at hr
        obtain ⟨rfl, -⟩ := hr
        have := Num.div_ok hdiv
        simp only [PyNum.add, PyNum.sub] at this
        rw [h1, XF.neg, XF.add_nan_right, XF.add_nan_left, XF.div_nan_left] at this
        simp only [PyNum.isnan, this, XF.isnan]
      · simp only [Except.ok.injEq, Prod.mk.injEq] at hr
        obtain ⟨rfl, -⟩ := hr
        rfl
      · cases hr
    · left
      have hden : (add (sub (neg (pb.M.inner s.x s.fgradx eta))
          (mul (lit (1 / 2)) (pb.M.inner s.x eta Heta))) (rhoReg c s.fx)).v = .nan := by
        rcases h1 with h1 | h1
        · simp only [PyNum.add, PyNum.sub, PyNum.neg, h1, XF.neg, XF.add_nan_left]
        · simp only [PyNum.add, PyNum.sub, PyNum.mul, h1, XF.mul_nan_right, XF.neg,
            XF.add_nan_right, XF.add_nan_left]
      have hle : le (lit 0) (add (sub (neg (pb.M.inner s.x s.fgradx eta))
          (mul (lit (1 / 2)) (pb.M.inner s.x eta Heta))) (rhoReg c s.fx)) = false := by
        apply LawfulPyNum.le_nan_right
        simp only [PyNum.isnan, hden, XF.isnan]
      unfold trRatio at hr
      simp only [hle] at hr
      split at hr
      · cases hr; rfl
      · cases hr; rfl
      · cases hr
  have hrej : trAccept c rho md = false := by
    unfold trAccept
    rcases key with h | h
    · rw [h]; rfl
    · rw [LawfulPyNum.lt_nan_right _ _ h, Bool.and_false]
  refine ⟨by rw [hn, hrej]; rfl, fun s' hs' => ?_⟩
  rw [hd s' hs', ← hD]
  unfold trRadius
  rw [if_pos]
  rcases key with h | h <;> simp [h]

theorem Num.lt_div4 {d D : Num K} (h : lt (lit 0) d = true) (hd : div d (lit 4) = .ok D) :
    lt (lit 0) D = true ∧ le D d = true := by
  have hc4 : ((4 : ℚ) : K) = 4 := by norm_num
  have h4 : (0 : K) < 4 := by norm_num
  simp only [PyNum.div, PyNum.lit, hc4] at hd
  rw [if_neg (by simp [h4.ne'])] at hd
  simp only [Except.ok.injEq] at hd
  subst hd
  obtain ⟨b, _ | _ | _ | d⟩ := d
  · simp [PyNum.lt, XF.lt, PyNum.lit] at h
  · simp [PyNum.lt, XF.lt, PyNum.lit] at h
  · simp only [PyNum.lt, PyNum.lit, XF.div, PyNum.le, if_neg (not_lt.2 h4.le)]
    exact ⟨rfl, rfl⟩
  · simp only [PyNum.lt, XF.lt, PyNum.lit, Rat.cast_zero, decide_eq_true_eq] at h
    simp only [PyNum.lt, XF.lt, PyNum.lit, XF.div, PyNum.le, XF.le, h4.ne', if_false,
      Rat.cast_zero, decide_eq_true_eq]
    exact ⟨by positivity, (div_le_iff₀ h4).2 (by linarith)⟩

theorem Num.lt_two_mul {d : Num K} (h : lt (lit 0) d = true) :
    lt (lit 0) (mul (lit 2) d) = true := by
  have hc2 : ((2 : ℚ) : K) = 2 := by norm_num
  have h2 : (0 : K) < 2 := by norm_num
  obtain ⟨b, _ | _ | _ | d⟩ := d
  · simp [PyNum.lt, XF.lt, PyNum.lit] at h
  · simp [PyNum.lt, XF.lt, PyNum.lit] at h
  · simp [PyNum.lt, XF.lt, PyNum.lit, PyNum.mul, XF.mul, XF.sgn]
  · simp only [PyNum.lt, XF.lt, PyNum.lit, Rat.cast_zero, decide_eq_true_eq] at h
    simp only [PyNum.lt, XF.lt, PyNum.lit, PyNum.mul, XF.mul, Rat.cast_zero, decide_eq_true_eq, hc2]
    positivity

/-- **C23** If the initial radius is positive and at most the maximal radius (infinite values
allowed), this holds in every state of a run. -/
theorem C23_radius {x : P} {Delta0 : Num K} (h0 : lt (lit 0) Delta0 = true)
    (h1 : le Delta0 DeltaBar = true) {t : TRState (Num K) P E}
    (h : Reaches (trStep cfg c pb clk eta0 mininner maxinner DeltaBar) (trInit pb x Delta0) t) :
    lt (lit 0) t.Delta = true ∧ le t.Delta DeltaBar = true := by
  have nb : isnan DeltaBar = false := by
    by_contra hb
    rw [LawfulPyNum.le_nan_right _ _ (by simpa using hb)] at h1
    cases h1
  refine h.invariant (fun s => lt (lit 0) s.Delta = true ∧ le s.Delta DeltaBar = true) ?_
    ⟨h0, h1⟩
  rintro s s' ⟨hs1, hs2⟩ hst
  obtain ⟨stop, eta, Heta, rho, md, Delta, -, -, hD, -, hd⟩ := trStep_now hst
  have ns : isnan s.Delta = false := LawfulPyNum.not_nan_of_lt_right hs1
  rw [hd s' rfl]
  unfold trRadius at hD
  split at hD
  · obtain ⟨a, b⟩ := Num.lt_div4 hs1 hD
    exact ⟨a, LawfulPyNum.le_trans (LawfulPyNum.not_nan_of_lt_right a) ns nb b hs2⟩
  · split at hD
    · simp only [Except.ok.injEq] at hD
      subst hD
      have h2 := Num.lt_two_mul hs1
      have n2 := LawfulPyNum.not_nan_of_lt_right h2
      unfold pymin
      split
      · rename_i hlt
        refine ⟨?_, LawfulPyNum.le_refl _ nb⟩
        rcases LawfulPyNum.lt_cotrans (lit 0) DeltaBar s.Delta nb hs1 with h | h
        · exact h
        · rw [LawfulPyNum.le_iff _ _ ns nb] at hs2
          rw [hs2] at h
          cases h
      · rename_i hlt
        exact ⟨h2, (LawfulPyNum.le_iff _ _ n2 nb).2 (by simpa using hlt)⟩
    · simp only [Except.ok.injEq] at hD
      subst hD
      exact ⟨hs1, hs2⟩

/-- The radii chosen when `Delta_bar` and/or `Delta0` are left out are admissible: with a positive
`typical_dist`, or, where that is not implemented, a positive dimension. -/
theorem C23_default_radii (dim : ℕ) (typicalDist DeltaBar : Option (Num ℝ))
    (hb : match DeltaBar, typicalDist with
      | some d, _ => lt (lit 0) d = true
      | none, some t => lt (lit 0) t = true
      | none, none => 0 < dim) :
    ∃ D D0, trRadii dim typicalDist DeltaBar none = .ok (D, D0) ∧
      (∀ d, DeltaBar = some d → D = d) ∧
      lt (lit 0) D0 = true ∧ le D0 D = true := by
  have hc8 : ((8 : ℚ) : ℝ) = 8 := by norm_num
  have key : ∀ D : Num ℝ, lt (lit 0) D = true → ∃ D0, div D (lit 8) = .ok D0 ∧
      lt (lit 0) D0 = true ∧ le D0 D = true := by
    intro D hD
    refine ⟨⟨D.np || false, D.v.div (.fin 8)⟩, ?_, ?_⟩
    · simp only [PyNum.div, PyNum.lit, hc8]
      rw [if_neg]
      simp
    · obtain ⟨b, _ | _ | _ | d⟩ := D
      · simp [PyNum.lt, XF.lt, PyNum.lit] at hD
      · simp [PyNum.lt, XF.lt, PyNum.lit] at hD
      · have : ¬ (8 : ℝ) < 0 := by norm_num
        simp [PyNum.lt, XF.lt, PyNum.lit, XF.div, PyNum.le, XF.le, this]
      · simp only [PyNum.lt, XF.lt, PyNum.lit, Rat.cast_zero, decide_eq_true_eq] at hD
        have h8 : (8 : ℝ) ≠ 0 := by norm_num
        simp only [PyNum.lt, XF.lt, PyNum.lit, XF.div, PyNum.le, XF.le, h8, if_false,
          Rat.cast_zero, decide_eq_true_eq]
        constructor
        · positivity
        · linarith
  unfold trRadii
  rcases DeltaBar with _ | d
  · rcases typicalDist with _ | t
    · simp only at hb
      obtain ⟨D0, h1, h2⟩ := key (sqrt (lit dim)) (by
        simp only [PyNum.lt, PyNum.lit, PyNum.sqrt, XF.sqrt, XF.lt]
        have h0 : ¬ ((dim : ℚ) : ℝ) < 0 := by
          push_cast
          exact not_lt.2 (Nat.cast_nonneg _)
        rw [if_neg h0]
        simp only [Rat.cast_zero, decide_eq_true_eq, NumField.sqrt]
        apply Real.sqrt_pos.2
        push_cast
        exact_mod_cast hb)
      simp only [h1]
      exact ⟨_, _, rfl, by simp, h2⟩
    · simp only at hb
      obtain ⟨D0, h1, h2⟩ := key t hb
      simp only [h1]
      exact ⟨_, _, rfl, by simp, h2⟩
  · simp only at hb
    obtain ⟨D0, h1, h2⟩ := key d hb
    simp only [h1]
    exact ⟨_, _, rfl, by simp, h2⟩

/-- **C24** (bound) In finite arithmetic: whenever an iteration moves to its proposal, the new
cost `b` satisfies `b < a + reg - rho_prime * (m + reg)` where `a` is the old cost, `m` the
decrease predicted by the model, and `reg = max(1, |a|) * 2 ** -52 * rho_regularization`. -/
theorem C24_accepted_bound {s : TRState (Num K) P E} {eta Heta : E} {a b g q rp rr : K}
    (hp : TRProposal c pb eta0 mininner maxinner s eta Heta)
    (ha : s.fx.v = .fin a) (hb : (pb.cost (pb.M.retraction s.x eta)).v = .fin b)
    (hg : (pb.M.inner s.x s.fgradx eta).v = .fin g)
    (hq : (pb.M.inner s.x eta Heta).v = .fin q)
    (hrp : c.rhoPrime.v = .fin rp) (hrr : c.rhoRegularization.v = .fin rr)
    {r : Ctl (TRState (Num K) P E) (Result (Num K) P × List (P × Num K × Num K))}
    (h : trStep cfg c pb clk eta0 mininner maxinner DeltaBar s = .ok r) :
    TRNow r = (s.x, s.fx) ∨
    (TRNow r = (pb.M.retraction s.x eta, pb.cost (pb.M.retraction s.x eta)) ∧
      let reg := max 1 |a| * (1 / 2 ^ 52) * rr
      let m := -g - 1 / 2 * q
      0 ≤ m + reg ∧ b < a + reg - rp * (m + reg)) := by
  obtain ⟨stop, eta', Heta', rho, md, Delta, hp', hr, hD, hn, hd⟩ := trStep_now h
  obtain ⟨rfl, rfl⟩ := hp.unique hp'
  by_cases hacc : trAccept c rho md = true
  swap
  · rw [if_neg hacc] at hn
    exact Or.inl hn
  rw [if_pos hacc] at hn
  refine Or.inr ⟨hn, ?_⟩
  intro reg m
  have hreg : (rhoReg c s.fx).v = .fin reg := by
    have habs : (PyNum.abs s.fx).v = .fin |a| := by
      simp only [PyNum.abs, ha, XF.abs]
      congr 1
      split
      · rename_i h; rw [abs_of_neg h]
      · rename_i h; rw [abs_of_nonneg (not_lt.1 h)]
    have hmax : (pymax (lit 1) (PyNum.abs s.fx)).v = .fin (max 1 |a|) := by
      unfold pymax
      simp only [PyNum.lt, habs, PyNum.lit, XF.lt, Rat.cast_one, decide_eq_true_eq]
      split
      · rename_i h; rw [habs, max_eq_right h.le]
      · rename_i h; rw [max_eq_left (not_lt.1 h)]
    have hs : (toNp (lit (1 / 2 ^ 52)) : Num K).v = .fin (1 / 2 ^ 52) := by
      simp only [PyNum.toNp, PyNum.lit]
      push_cast
      rfl
    simp only [rhoReg, PyNum.mul, hmax, hrr, hs, XF.mul]
    rfl
  have hnum : (add (sub s.fx (pb.cost (pb.M.retraction s.x eta))) (rhoReg c s.fx)).v
      = .fin (a - b + reg) := by
    simp only [PyNum.add, PyNum.sub, ha, hb, hreg, XF.neg, XF.add]
    congr 1
    ring
  have hden : (add (sub (neg (pb.M.inner s.x s.fgradx eta))
      (mul (lit (1 / 2)) (pb.M.inner s.x eta Heta))) (rhoReg c s.fx)).v = .fin (m + reg) := by
    simp only [PyNum.add, PyNum.sub, PyNum.neg, PyNum.mul, PyNum.lit, hg, hq, hreg, XF.neg, XF.add,
      XF.mul]
    congr 1
    simp only [m]
    push_cast
    ring
  unfold trAccept at hacc
  simp only [Bool.and_eq_true] at hacc
  obtain ⟨hmd, hlt⟩ := hacc
  unfold trRatio at hr
  simp only at hr
  generalize add (sub s.fx (pb.cost (pb.M.retraction s.x eta))) (rhoReg c s.fx) = num at hr hnum
  generalize add (sub (neg (pb.M.inner s.x s.fgradx eta))
      (mul (lit (1 / 2)) (pb.M.inner s.x eta Heta))) (rhoReg c s.fx) = den at hr hden
  have hle : md = le (lit 0) den := by
    split at hr
    · cases hr; rfl
    · cases hr; rfl
    · cases hr
  rw [hle] at hmd
  simp only [PyNum.le, PyNum.lit, hden, XF.le, Rat.cast_zero, decide_eq_true_eq] at hmd
  refine ⟨hmd, ?_⟩
  by_cases h0 : m + reg = 0
  swap
  · have hne := h0
    split at hr
    · rename_i rho' hdiv
      cases hr
      simp only [PyNum.div, hden, hnum, XF.div, hne, if_false] at hdiv
      rw [if_neg (by simp [hne])] at hdiv
      cases hdiv
      simp only [PyNum.lt, hrp, XF.lt, decide_eq_true_eq] at hlt
      have hpos : 0 < m + reg := lt_of_le_of_ne hmd (Ne.symm hne)
      rw [lt_div_iff₀ hpos] at hlt
      linarith
    · rename_i hdiv
      simp only [PyNum.div, hden] at hdiv
      rw [if_neg (by simp [hne])] at hdiv
      cases hdiv
    · cases hr
  · rw [h0, mul_zero, sub_zero]
    split at hr
    · rename_i rho' hdiv
      cases hr
      simp only [PyNum.div, hden, hnum, XF.div, h0, if_true] at hdiv
      split at hdiv
      · cases hdiv
      · simp only [Except.ok.injEq] at hdiv
        subst hdiv
        simp only [PyNum.lt, hrp] at hlt
        split at hlt
        · simp [XF.lt] at hlt
        · split at hlt
          · rename_i hgt
            linarith
          · simp [XF.lt] at hlt
    · cases hr
      rw [LawfulPyNum.lt_nan_right _ _ HasNaN.isnan_nan] at hlt
      cases hlt
    · cases hr

/-- **C25** (what holds instead) With `rho_prime >= 0` the increase of the cost in one iteration is
below `max(1, |f|) * 2 ** -52 * rho_regularization`. -/
theorem C25_increase_bounded_partial {s : TRState (Num K) P E} {eta Heta : E} {a b g q rp rr : K}
    (hp : TRProposal c pb eta0 mininner maxinner s eta Heta)
    (ha : s.fx.v = .fin a) (hb : (pb.cost (pb.M.retraction s.x eta)).v = .fin b)
    (hg : (pb.M.inner s.x s.fgradx eta).v = .fin g)
    (hq : (pb.M.inner s.x eta Heta).v = .fin q)
    (hrp : c.rhoPrime.v = .fin rp) (hrp0 : 0 ≤ rp) (hrr : c.rhoRegularization.v = .fin rr)
    {r : Ctl (TRState (Num K) P E) (Result (Num K) P × List (P × Num K × Num K))}
    (h : trStep cfg c pb clk eta0 mininner maxinner DeltaBar s = .ok r) :
    (TRNow r).2 = s.fx ∨
      ∃ b', (TRNow r).2.v = .fin b' ∧ b' < a + max 1 |a| * (1 / 2 ^ 52) * rr := by
  rcases C24_accepted_bound hp ha hb hg hq hrp hrr h with h1 | ⟨h1, h2, h3⟩
  · exact Or.inl (by rw [h1])
  · refine Or.inr ⟨b, by rw [h1]; exact hb, lt_of_lt_of_le h3 ?_⟩
    have := mul_nonneg hrp0 h2
    linarith

/-- **C24** (monotone) With `rho_regularization = 0` and `rho_prime >= 0`, in floating point with
infinities and NaN and for every Hessian: an iteration keeps iterate and cost, or strictly
decreases the cost. -/
theorem C24_step_decreases (hrp : le (lit 0) c.rhoPrime = true)
    (hrr : c.rhoRegularization.v = .fin 0) {s : TRState (Num K) P E}
    {r : Ctl (TRState (Num K) P E) (Result (Num K) P × List (P × Num K × Num K))}
    (h : trStep cfg c pb clk eta0 mininner maxinner DeltaBar s = .ok r) :
    TRNow r = (s.x, s.fx) ∨ lt (TRNow r).2 s.fx = true := by
  obtain ⟨stop, eta, Heta, rho, md, Delta, -, hr, -, hn, -⟩ := trStep_now h
  by_cases hacc : trAccept c rho md = true
  swap
  · rw [if_neg hacc] at hn
    exact Or.inl hn
  rw [if_pos hacc] at hn
  refine Or.inr ?_
  rw [hn]
  simp only
  have hreg : (rhoReg c s.fx).v = .fin 0 ∨ (rhoReg c s.fx).v = .nan := by
    simp only [rhoReg, PyNum.mul, hrr]
    generalize ((pymax (lit 1) (PyNum.abs s.fx)).v.mul (toNp (lit (1 / 2 ^ 52)) : Num K).v) = w
    cases w <;> simp [XF.mul, XF.sgn]
  unfold trAccept at hacc
  simp only [Bool.and_eq_true] at hacc
  obtain ⟨hmd, hlt⟩ := hacc
  unfold trRatio at hr
  simp only at hr
  generalize pb.cost (pb.M.retraction s.x eta) = fp at hr ⊢
  generalize add (sub (neg (pb.M.inner s.x s.fgradx eta))
      (mul (lit (1 / 2)) (pb.M.inner s.x eta Heta))) (rhoReg c s.fx) = den at hr
  have hle : md = le (lit 0) den := by
    split at hr
    · cases hr; rfl
    · cases hr; rfl
    · cases hr
  rw [hle] at hmd
  have hpos : lt (lit 0) rho = true := by
    rcases LawfulPyNum.lt_cotrans c.rhoPrime (lit 0) rho (LawfulPyNum.isnan_lit 0) hlt with h | h
    · rw [LawfulPyNum.le_iff _ _ (LawfulPyNum.isnan_lit 0)
        (LawfulPyNum.not_nan_of_lt_left hlt)] at hrp
      rw [hrp] at h
      cases h
    · exact h
  have hval : rho.v = ((s.fx.v.add fp.v.neg).add (rhoReg c s.fx).v).div den.v := by
    split at hr
    · rename_i rho' hdiv
      cases hr
      simp only [PyNum.div, PyNum.add, PyNum.sub] at hdiv
      split at hdiv
      · cases hdiv
      · cases hdiv; rfl
    · cases hr
      rw [LawfulPyNum.lt_nan_right _ _ HasNaN.isnan_nan] at hpos
      cases hpos
    · cases hr
  simp only [PyNum.lt, PyNum.le, PyNum.lit, Rat.cast_zero] at hpos hmd ⊢
  rw [hval] at hpos
  rcases hreg with hreg | hreg
  · rw [hreg] at hpos
    generalize den.v = d at hpos hmd
    generalize s.fx.v = a at hpos ⊢
    generalize fp.v = b at hpos ⊢
    cases a <;> cases b <;> cases d <;>
      simp only [XF.neg, XF.add, XF.div, XF.lt, XF.le, decide_eq_true_eq,
        Bool.false_eq_true, add_zero] at hpos hmd ⊢
    · rw [if_neg (not_lt.2 hmd)] at hpos
      cases hpos
    · rw [if_neg (not_lt.2 hmd)] at hpos
      cases hpos
    · rw [if_neg (not_lt.2 hmd)] at hpos
      cases hpos
    · exact absurd hpos (lt_irrefl _)
    · rename_i a b d
      by_cases hd : d = 0
      · rw [if_pos hd] at hpos
        by_cases h1 : a + -b = 0
        · rw [if_pos h1] at hpos
          cases hpos
        · rw [if_neg h1] at hpos
          by_cases h2 : 0 < a + -b
          · linarith
          · rw [if_neg h2] at hpos
            cases hpos
      · rw [if_neg hd] at hpos
        simp only [decide_eq_true_eq] at hpos
        have := (div_pos_iff_of_pos_right (lt_of_le_of_ne hmd (Ne.symm hd))).1 hpos
        linarith
  · rw [hreg, XF.add_nan_right, XF.div_nan_left] at hpos
    simp [XF.lt] at hpos

/-- **C24** (monotone, whole runs) With `rho_regularization = 0` and `rho_prime >= 0`: between any
two states of a run the cost stays the same or decreases. -/
theorem C24_monotone (hrp : le (lit 0) c.rhoPrime = true)
    (hrr : c.rhoRegularization.v = .fin 0) {s t : TRState (Num K) P E}
    (h : Reaches (trStep cfg c pb clk eta0 mininner maxinner DeltaBar) s t) :
    t.fx = s.fx ∨ lt t.fx s.fx = true := by
  refine h.invariant (fun u => u.fx = s.fx ∨ lt u.fx s.fx = true) ?_ (Or.inl rfl)
  intro u u' hu hst
  rcases C24_step_decreases hrp hrr hst with h1 | h1
  · have : u'.fx = u.fx := congrArg Prod.snd h1
    rwa [this]
  · change lt u'.fx u.fx = true at h1
    rcases hu with hu | hu
    · rw [hu] at h1; exact Or.inr h1
    · exact Or.inr (LawfulPyNum.lt_trans _ _ _ h1 hu)

/-- The cost a run returns is the cost at the initial point or below it. -/
theorem C24_result (hrp : le (lit 0) c.rhoPrime = true)
    (hrr : c.rhoRegularization.v = .fin 0) {x : P} {Delta0 : Num K}
    {res : Result (Num K) P × List (P × Num K × Num K)}
    (h : Runs (trStep cfg c pb clk eta0 mininner maxinner DeltaBar) (trInit pb x Delta0)
      (.ok res)) :
    res.1.cost = pb.cost x ∨ lt res.1.cost (pb.cost x) = true := by
  have aux : ∀ u r, (u.fx = pb.cost x ∨ lt u.fx (pb.cost x) = true) →
      trStep cfg c pb clk eta0 mininner maxinner DeltaBar u = .ok r →
      (TRNow r).2 = pb.cost x ∨ lt (TRNow r).2 (pb.cost x) = true := by
    intro u r hu hst
    rcases C24_step_decreases hrp hrr hst with h1 | h1
    · rw [h1]; exact hu
    · rcases hu with hu | hu
      · rw [hu] at h1; exact Or.inr h1
      · exact Or.inr (LawfulPyNum.lt_trans _ _ _ h1 hu)
  exact h.invariant (fun u => u.fx = pb.cost x ∨ lt u.fx (pb.cost x) = true)
    (fun res => res.1.cost = pb.cost x ∨ lt res.1.cost (pb.cost x) = true)
    (fun u u' hu hst => aux u (.next u') hu hst) (fun u r hu hst => aux u (.brk r) hu hst)
    (Or.inl rfl)

end

/-! ### Concrete cases -/

/-- The default arguments of `TrustRegions` (trust_regions.py:80-90). -/
def defaultTR : TRCfg Q :=
  { kappa := .py (1 / 10), theta := .py 1, rhoPrime := .py (1 / 10), useRand := false,
    rhoRegularization := .py 1000 }

/-- The hypotheses of C23, C24 and C27 are met by the default options on `f(x) = x ** 2`, where a
step is accepted. -/
example : lt defaultTR.rhoPrime (lit (1 / 4)) = true ∧ le (lit 0) defaultTR.rhoPrime = true ∧
    lt (lit 0) (lit (1 / 8) : Q) = true ∧ le (lit (1 / 8)) (lit 1 : Q) = true := by
  decide +kernel

example : ∃ t, Reaches (trStep defaultCfg { defaultTR with rhoRegularization := .py 0 } squareProb
      stillClock (fun _ => .npy 0) 1 1 (.py 1)) (trInit squareProb (.npy 1) (.py (1 / 8))) t ∧
    lt t.fx (trInit squareProb (.npy 1) (.py (1 / 8))).fx = true ∧
    lt (lit (1 / 8)) t.Delta = true := by
  have h : (match trStep defaultCfg { defaultTR with rhoRegularization := .py 0 } squareProb
      stillClock (fun _ => .npy 0) 1 1 (.py 1) (trInit squareProb (.npy 1) (.py (1 / 8))) with
    | .ok (.next t) => lt t.fx (trInit squareProb (.npy 1) (.py (1 / 8))).fx &&
        lt (lit (1 / 8)) t.Delta
    | _ => false) = true := by decide +kernel
  split at h
  · rename_i t ht
    simp only [Bool.and_eq_true] at h
    exact ⟨t, .tail .refl ht, h.1, h.2⟩
  · cases h

/-- `f(x) = x ** 2` for `x >= 1`, NaN elsewhere. -/
def nanProb : Prob Q Q Q :=
  lineProb (fun x => if lt x (lit 1) then nan else toNp (mul x x)) (fun x => mul (lit 2) x)
    (fun _ => .npy 2)

/-- The hypotheses of C26 can be met. -/
example : ∃ eta Heta, TRProposal defaultTR nanProb (fun _ => .npy 0) 1 1
      (trInit nanProb (.npy 1) (.py (1 / 8))) eta Heta ∧
    (nanProb.cost (nanProb.M.retraction (.npy 1) eta)).v = .nan := by
  have h : (match tcg defaultTR nanProb (.npy 1) (nanProb.grad (.npy 1))
      (nanProb.M.zeroVector (.npy 1)) (.py (1 / 8)) 1 1 with
    | .ok o => decide ((nanProb.cost (nanProb.M.retraction (.npy 1) o.eta)).v = .nan)
    | _ => false) = true := by decide +kernel
  split at h
  · rename_i o ho
    exact ⟨o.eta, o.Heta, ⟨o, ho, rfl⟩, of_decide_eq_true h⟩
  · cases h

/-- `f(x) = 1e-13 * (100 * x ** 3 - x / 100)` -/
def flatProb : Prob Q Q Q :=
  lineProb (fun x => toNp (mul (lit (1 / 10 ^ 13))
      (sub (mul (lit 100) (mul x (mul x x))) (mul (lit (1 / 100)) x))))
    (fun x => mul (lit (1 / 10 ^ 13)) (sub (mul (lit 300) (mul x x)) (lit (1 / 100))))
    (fun x => mul (lit (1 / 10 ^ 13)) (mul (lit 600) x))

/-- **C25** is false: with default options `TrustRegions` started at `0` on this polynomial returns
a point with larger cost. -/
theorem C25_default_not_monotone :
    ∃ res, TRRuns defaultCfg defaultTR flatProb stillClock (fun _ => .npy 0) 1 none
        (some (sqrt (.py 1))) none none (.npy 0) (.ok res) ∧
      lt (flatProb.cost (.npy 0)) res.1.cost = true ∧
      res.1.cost = flatProb.cost res.1.point := by
  have h : checkFuel (trStep defaultCfg defaultTR flatProb stillClock (fun _ => .npy 0) 1 1
      (sqrt (.py 1))) 3 (trInit flatProb (.npy 0) ⟨true, .fin (1 / 8)⟩)
      (isOk fun res => lt (flatProb.cost (.npy 0)) res.1.cost &&
        decide (res.1.cost = flatProb.cost res.1.point)) = true := by decide +kernel
  obtain ⟨r, hr, hp⟩ := exists_of_checkFuel h
  obtain ⟨res, rfl, hres⟩ := exists_of_isOk hp
  simp only [Bool.and_eq_true] at hres
  refine ⟨res, ?_, hres.1, of_decide_eq_true hres.2⟩
  have hrad : trRadii flatProb.M.dim (some (sqrt (.py 1))) none none
      = .ok (sqrt (.py 1), (⟨true, .fin (1 / 8)⟩ : Q)) := by
    have hc : (match trRadii flatProb.M.dim (some (sqrt (.py 1))) none none with
      | .ok (a, b) => decide (a = sqrt (.py 1) ∧ b = (⟨true, .fin (1 / 8)⟩ : Q))
      | _ => false) = true := by decide +kernel
    split at hc
    · rename_i a b hab
      obtain ⟨rfl, rfl⟩ := of_decide_eq_true hc
      exact hab
    · cases hc
  unfold TRRuns
  rw [hrad]
  exact hr

end Verif.Opt
