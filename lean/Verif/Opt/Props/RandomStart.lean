/-
C141 (the random start of the trust-region subproblem) and what holds of C103 for starts other
than zero.
-/
import Mathlib.Analysis.InnerProductSpace.Basic
import Verif.Opt.Model.RandomStart
import Verif.Opt.Props.TCG
import Verif.Opt.Props.CauchyPoint
import Verif.Opt.Props.OnManifold

namespace Verif.Opt
open PyNum

/-! ### C141 -/

section
variable {P E : Type*} {M : Mfd ℝ P E} {x : P} {Delta : ℝ} {draw eta : E}

theorem startStep_real (M : Mfd ℝ P E) (x : P) (Delta : ℝ) (eta : E) :
    startStep M x Delta eta = if Delta < M.norm x eta then .ok (.next (M.smul (1 / 2 ^ 13) eta))
      else .ok (.brk eta) := by
  unfold startStep
  simp [PyNum.lt, PyNum.lit, PyNum.toNp]

/-- **C141** If the norm is homogeneous and the radius is positive, the loop choosing the random
start ends, with one result: the draw scaled by `1e-6 * 2 ** (-13 * n)` for the least `n` for which
this lies in the trust region. -/
theorem C141_start (hM : ∀ a v, M.norm x (M.smul a v) = |a| * M.norm x v)
    (hmul : ∀ a b v, M.smul a (M.smul b v) = M.smul (a * b) v) (hD : 0 < Delta) (draw : E) :
    ∃ n : ℕ, (∀ eta, RandomStart M x Delta draw eta ↔
        eta = M.smul (1 / 10 ^ 6 * (1 / 2 ^ 13) ^ n) draw) ∧
      M.norm x (M.smul (1 / 10 ^ 6 * (1 / 2 ^ 13) ^ n) draw) ≤ Delta ∧
      ∀ m < n, Delta < M.norm x (M.smul (1 / 10 ^ 6 * (1 / 2 ^ 13) ^ m) draw) := by
  have hex : ∃ n : ℕ, M.norm x (M.smul (1 / 10 ^ 6 * (1 / 2 ^ 13) ^ n) draw) ≤ Delta := by
    rcases le_or_gt (M.norm x draw) 0 with h0 | h0
    · refine ⟨0, ?_⟩
      rw [hM]
      exact (mul_nonpos_of_nonneg_of_nonpos (abs_nonneg _) h0).trans hD.le
    · obtain ⟨n, hn⟩ := exists_pow_lt_of_lt_one (show 0 < Delta / M.norm x draw by positivity)
        (show (1 / 2 ^ 13 : ℝ) < 1 by norm_num)
      refine ⟨n, ?_⟩
      rw [hM, abs_of_pos (by positivity)]
      rw [lt_div_iff₀ h0] at hn
      have : (0 : ℝ) < (1 / 2 ^ 13) ^ n * M.norm x draw := by positivity
      nlinarith
  classical
  obtain ⟨n, hn, hmin⟩ : ∃ n : ℕ, M.norm x (M.smul (1 / 10 ^ 6 * (1 / 2 ^ 13) ^ n) draw) ≤ Delta ∧
      ∀ m < n, Delta < M.norm x (M.smul (1 / 10 ^ 6 * (1 / 2 ^ 13) ^ m) draw) :=
    ⟨Nat.find hex, Nat.find_spec hex, fun m hm => not_le.1 (Nat.find_min hex hm)⟩
  have hrun : ∀ k m : ℕ, m + k = n →
      Runs (startStep M x Delta) (M.smul (1 / 10 ^ 6 * (1 / 2 ^ 13) ^ m) draw)
        (.ok (M.smul (1 / 10 ^ 6 * (1 / 2 ^ 13) ^ n) draw)) := by
    intro k
    induction k with
    | zero =>
      intro m hm
      obtain rfl : m = n := by omega
      refine ⟨1, .brk ?_⟩
      rw [startStep_real, if_neg (not_lt.2 hn)]
    | succ k ih =>
      intro m hm
      obtain ⟨j, hj⟩ := ih (m + 1) (by omega)
      refine ⟨j + 1, .next (s' := M.smul (1 / 10 ^ 6 * (1 / 2 ^ 13) ^ (m + 1)) draw) ?_ hj⟩
      rw [startStep_real, if_pos (hmin m (by omega)), hmul]
      rw [show (1 / 2 ^ 13 * (1 / 10 ^ 6 * (1 / 2 ^ 13) ^ m) : ℝ) =
        1 / 10 ^ 6 * (1 / 2 ^ 13) ^ (m + 1) by rw [pow_succ (1 / 2 ^ 13 : ℝ) m]; ring]
  have h0 := hrun n 0 (by omega)
  have hlit : (lit (1 / 10 ^ 6) : ℝ) = 1 / 10 ^ 6 * (1 / 2 ^ 13) ^ 0 := by
    simp [PyNum.lit]
  refine ⟨n, fun eta => ⟨fun h => ?_, ?_⟩, hn, hmin⟩
  · unfold RandomStart at h
    rw [hlit] at h
    exact Except.ok.inj (Runs.det h h0)
  · rintro rfl
    unfold RandomStart
    rw [hlit]
    exact h0

/-- **C141** A start that was found lies in the trust region and is no longer than a millionth of
the draw, whatever the radius. -/
theorem C141_inside (hM : ∀ a v, M.norm x (M.smul a v) = |a| * M.norm x v)
    (hpos : ∀ v, 0 ≤ M.norm x v) (h : RandomStart M x Delta draw eta) :
    M.norm x eta ≤ Delta ∧ M.norm x eta ≤ 1 / 10 ^ 6 * M.norm x draw := by
  refine Runs.invariant (fun v => M.norm x v ≤ 1 / 10 ^ 6 * M.norm x draw)
    (fun v => M.norm x v ≤ Delta ∧ M.norm x v ≤ 1 / 10 ^ 6 * M.norm x draw) ?_ ?_ h ?_
  · intro v v' hv hst
    rw [startStep_real] at hst
    split at hst
    · cases hst
      rw [hM, abs_of_pos (by norm_num)]
      have := hpos v
      linarith
    · cases hst
  · intro v w hv hst
    rw [startStep_real] at hst
    split at hst
    · cases hst
    · rename_i hlt
      cases hst
      exact ⟨not_lt.1 hlt, hv⟩
  · rw [hM, show (lit (1 / 10 ^ 6) : ℝ) = 1 / 10 ^ 6 by simp [PyNum.lit], abs_of_pos (by norm_num)]

/-- **C141** (negative) With a negative radius, which the optimizer does not reject, the loop never
ends; with radius zero it ends (in exact arithmetic) only for draws of norm zero. -/
theorem C141_negation (hM : ∀ a v, M.norm x (M.smul a v) = |a| * M.norm x v)
    (hpos : ∀ v, 0 ≤ M.norm x v) (hD : Delta < 0 ∨ Delta = 0 ∧ 0 < M.norm x draw)
    (r : Except PyErr E) :
    ¬Runs (startStep M x Delta) (M.smul (lit (1 / 10 ^ 6)) draw) r := by
  have key : ∀ v, (Delta < 0 ∨ Delta = 0 ∧ 0 < M.norm x v) → Delta < M.norm x v := by
    rintro v (h | ⟨h, h'⟩)
    · exact h.trans_le (hpos v)
    · rwa [h]
  rintro ⟨n, h⟩
  have h0 : Delta < 0 ∨ Delta = 0 ∧ 0 < M.norm x (M.smul (lit (1 / 10 ^ 6)) draw) := by
    refine hD.imp_right fun h => ⟨h.1, ?_⟩
    rw [hM]
    exact mul_pos (by simp [PyNum.lit]) h.2
  generalize M.smul (lit (1 / 10 ^ 6)) draw = v at h h0
  induction h with
  | brk hst =>
    rw [startStep_real, if_pos (key _ h0)] at hst
    cases hst
  | err hst =>
    rw [startStep_real, if_pos (key _ h0)] at hst
    cases hst
  | next hst _ ih =>
    rw [startStep_real, if_pos (key _ h0)] at hst
    cases hst
    refine ih (h0.imp_right fun h => ⟨h.1, ?_⟩)
    rw [hM]
    exact mul_pos (by norm_num) h.2

end

section
variable {F P E : Type*} [PyNum F] {On : P → Prop} {Tan : P → E → Prop}

/-- **C141** The start is a tangent vector if the draw is. -/
theorem C141_tangent {M : Mfd F P E} (hM : ClosedMfd M On Tan) {x : P} {Delta : F} {draw eta : E}
    (hx : On x) (hd : Tan x draw) (h : RandomStart M x Delta draw eta) : Tan x eta := by
  refine Runs.invariant (fun v => Tan x v) (fun v => Tan x v) ?_ ?_ h (hM.smul _ _ _ hx hd)
  · intro v v' hv hst
    unfold startStep at hst
    split at hst
    · cases hst
      exact hM.smul _ _ _ hx hv
    · cases hst
  · intro v w hv hst
    unfold startStep at hst
    split at hst
    · cases hst
    · cases hst
      exact hv

/-- **C109** (trust regions with `use_rand`): if the draws are tangent vectors, every point
evaluated or returned and every iterate is on the manifold. -/
theorem C109_trustRegions_random {cfg : Cfg F} {c : TRCfg F} {pb : Prob F P E} {clk : Clock F}
    {eta0 draw : ℤ → E} {mininner : ℤ} {maxinner : Option ℤ}
    {typicalDist DeltaBar Delta0 : Option F} {x : P} {r : Result F P}
    {history : List (P × F × F)} (hpb : ClosedProb pb On Tan) (hhess : ClosedHess pb On Tan)
    (hdraw : ∀ mi ma D D0 s, Reaches (trStep cfg c pb clk eta0 mi ma D) (trInit pb x D0) s →
      (On s.x → Tan s.x (draw (s.iteration + 1))) ∧
        RandomStart pb.M s.x s.Delta (draw (s.iteration + 1)) (eta0 (s.iteration + 1)))
    (hx : On x)
    (h : TRRuns cfg c pb clk eta0 mininner maxinner typicalDist DeltaBar Delta0 x
      (.ok (r, history))) :
    ResultOn On r ∧ ∀ q ∈ history, On q.1 :=
  C109_trustRegions hpb hhess (fun _ mi ma D D0 s hs hon =>
    C141_tangent hpb.mfd hon ((hdraw mi ma D D0 s hs).1 hon) (hdraw mi ma D D0 s hs).2) hx h

end

/-! ### C103 -/

section
open scoped InnerProductSpace

variable {P V : Type*} [NormedAddCommGroup V] [InnerProductSpace ℝ V]

/-- Loop invariant for the start `e0`, where `d0` is the first search direction and `k` the
coefficient of the projection of `e0` to it: the numbers that are updated by recurrences belong to
the step with `e0` replaced by that projection. -/
structure RInv (e0 d0 : V) (k : ℝ) (g : V) (H : V →ₗ[ℝ] V) (Delta M : ℝ)
    (S : Submodule ℝ V) (s : TCGState ℝ V) : Prop where
  Heta : s.Heta = H s.eta
  r : s.r = g + H s.eta
  eta_mem : s.eta - e0 ∈ S
  d0_mem : d0 ∈ S ⊔ Submodule.span ℝ {s.delta}
  r_perp : ∀ u ∈ S, ⟪u, s.r⟫_ℝ = 0
  conj : ∀ u ∈ S, ⟪u, H s.delta⟫_ℝ = 0
  zr : s.zr = ⟪s.r, s.r⟫_ℝ
  delta_r : ⟪s.delta, s.r⟫_ℝ = -s.zr
  z_mem : s.r + s.delta ∈ S
  krylov : ∀ u ∈ S, ∃ c : ℝ, H u - c • s.delta ∈ S
  ePe : s.ePe = ‖s.eta - e0 + k • d0‖ ^ 2 + ‖e0 - k • d0‖ ^ 2
  dPd : s.dPd = ‖s.delta‖ ^ 2
  ePd : s.ePd = ⟪s.eta - e0 + k • d0, s.delta⟫_ℝ
  bound : s.ePe ≤ Delta ^ 2
  model : s.modelValue = quad g H s.eta
  model_le : s.modelValue ≤ M

/-- What is claimed about the returned step. -/
structure RPost (e0 d0 : V) (k : ℝ) (g : V) (H : V →ₗ[ℝ] V) (Delta M : ℝ) (o : TCGOut V) :
    Prop where
  Heta : o.Heta = H o.eta
  bound : ‖o.eta - e0 + k • d0‖ ^ 2 + ‖e0 - k • d0‖ ^ 2 ≤ Delta ^ 2
  boundary : (o.stop = .negativeCurvature ∨ o.stop = .exceededTR) →
    ‖o.eta - e0 + k • d0‖ ^ 2 + ‖e0 - k • d0‖ ^ 2 = Delta ^ 2
  model_le : quad g H o.eta ≤ M
  first : o.j = 0 → ∃ a : ℝ, o.eta = e0 + a • d0

variable {c : TRCfg ℝ} {pb : Prob ℝ P V} {x : P} {H : V →ₗ[ℝ] V} {g e0 d0 : V}
  {k Delta M normr0 : ℝ} {mininner : ℤ}

theorem norm_add_smul_sq (u d : V) (t : ℝ) :
    ‖u + t • d‖ ^ 2 = ‖u‖ ^ 2 + 2 * t * ⟪u, d⟫_ℝ + t ^ 2 * ‖d‖ ^ 2 := by
  rw [norm_add_sq_real, real_inner_smul_right, norm_smul, mul_pow, Real.norm_eq_abs, sq_abs]
  ring

theorem tcgBody_rinv (hE : ExactAt pb x H) (hrand : c.useRand = true)
    (hsym : ∀ u v, ⟪H u, v⟫_ℝ = ⟪u, H v⟫_ℝ)
    {j : ℕ} {S : Submodule ℝ V} {s : TCGState ℝ V} (hs : RInv e0 d0 k g H Delta M S s)
    (hj : j = 0 → s.eta = e0 ∧ s.delta = d0)
    {r : Ctl (TCGState ℝ V) (TCGOut V)}
    (h : tcgBody c pb x g Delta normr0 mininner j s = .ok r) :
    match r with
    | .next s' => (∃ S', RInv e0 d0 k g H Delta M S' s') ∧
        (j = 0 → ∃ a : ℝ, s'.eta = e0 + a • d0)
    | .brk o => RPost e0 d0 k g H Delta M o := by
  have hzr0 : 0 ≤ s.zr := by
    rw [hs.zr]
    exact real_inner_self_nonneg
  have hne : ∀ a : ℝ, ne0 a = true ↔ a ≠ 0 := by
    intro a
    simp only [ne0, PyNum.le, PyNum.lit, Rat.cast_zero, Bool.not_eq_true', Bool.and_eq_false_iff,
      decide_eq_false_iff_not, not_le]
    constructor
    · rintro (h | h)
      · exact h.ne'
      · exact h.ne
    · intro h
      exact (lt_or_gt_of_ne h).symm
  have hdiv : ∀ a b q : ℝ, div a b = .ok q → b ≠ 0 ∧ q = a / b := by
    intro a b q hq
    simp only [PyNum.div] at hq
    split at hq
    · cases hq
    · rename_i hb
      cases hq
      exact ⟨hb, rfl⟩
  have hpow : ∀ a : ℝ, pow a (lit 2) = a ^ 2 := by
    intro a
    simp only [PyNum.pow, PyNum.lit]
    norm_num
  have hdPd : 0 ≤ s.dPd := by rw [hs.dPd]; positivity
  have hfirst : ∀ t : ℝ, j = 0 → ∃ a : ℝ, s.eta + t • s.delta = e0 + a • d0 := by
    intro t h0
    obtain ⟨h1, h2⟩ := hj h0
    exact ⟨t, by rw [h1, h2]⟩
  have hlen : ∀ t : ℝ, ‖s.eta + t • s.delta - e0 + k • d0‖ ^ 2 + ‖e0 - k • d0‖ ^ 2 =
      s.ePe + 2 * t * s.ePd + t ^ 2 * s.dPd := by
    intro t
    rw [show s.eta + t • s.delta - e0 + k • d0 = (s.eta - e0 + k • d0) + t • s.delta by module,
      norm_add_smul_sq, hs.ePe, hs.ePd, hs.dPd]
    ring
  have hdz : s.zr = 0 → ⟪s.delta, H s.delta⟫_ℝ = 0 := by
    intro h0
    have hr : s.r = 0 := by
      rw [hs.zr] at h0
      exact inner_self_eq_zero.1 h0
    have hm := hs.z_mem
    rw [hr, zero_add] at hm
    exact hs.conj _ hm
  -- a step to the boundary
  have boundary : ∀ tau : ℝ, div (PyNum.add (PyNum.neg s.ePd) (PyNum.sqrt (PyNum.add
      (mul s.ePd s.ePd) (mul s.dPd (sub (Delta ^ 2) s.ePe))))) s.dPd = .ok tau →
      (⟪s.delta, H s.delta⟫_ℝ ≤ 0 ∨ (0 < ⟪s.delta, H s.delta⟫_ℝ ∧ 0 < s.zr ∧
        Delta ^ 2 ≤ s.ePe + 2 * (s.zr / ⟪s.delta, H s.delta⟫_ℝ) * s.ePd +
          (s.zr / ⟪s.delta, H s.delta⟫_ℝ) ^ 2 * s.dPd)) →
      ‖s.eta + tau • s.delta - e0 + k • d0‖ ^ 2 + ‖e0 - k • d0‖ ^ 2 = Delta ^ 2 ∧
      quad g H (s.eta + tau • s.delta) ≤ M := by
    intro tau htau hcase
    obtain ⟨hd, rfl⟩ := hdiv _ _ _ htau
    have hd : 0 < s.dPd := lt_of_le_of_ne hdPd (Ne.symm hd)
    obtain ⟨t0, t1, t2⟩ := tau_spec (b := s.ePd) hd hs.bound
    simp only [PyNum.add, PyNum.neg, PyNum.sqrt, PyNum.mul, PyNum.sub]
    generalize (-s.ePd + √(s.ePd * s.ePd + s.dPd * (Delta ^ 2 - s.ePe))) / s.dPd = t at *
    refine ⟨by rw [hlen]; exact t1, ?_⟩
    rw [quad_add hsym, ← hs.r, hs.delta_r, ← hs.model]
    have hm := hs.model_le
    rcases hcase with h1 | ⟨h1, h2, h3⟩
    · have a1 := mul_nonneg t0 hzr0
      have a2 : t ^ 2 / 2 * ⟪s.delta, H s.delta⟫_ℝ ≤ 0 :=
        mul_nonpos_of_nonneg_of_nonpos (by positivity) h1
      linarith
    · have hle := t2 _ (div_pos h2 h1) h3
      rw [le_div_iff₀ h1] at hle
      have a1 : t * (t * ⟪s.delta, H s.delta⟫_ℝ) ≤ t * s.zr := mul_le_mul_of_nonneg_left hle t0
      have a2 : 0 ≤ t * s.zr := mul_nonneg t0 hzr0
      have a3 : t ^ 2 / 2 * ⟪s.delta, H s.delta⟫_ℝ = t * (t * ⟪s.delta, H s.delta⟫_ℝ) / 2 := by ring
      rw [a3]
      linarith
  unfold tcgBody at h
  simp only [hE.hess, hE.inner, hE.add, hE.smul, hE.neg, hE.toTangent, hrand, if_true, hpow] at h
  by_cases hd0 : ⟪s.delta, H s.delta⟫_ℝ ≤ 0
  · -- negative curvature
    have hle : PyNum.le ⟪s.delta, H s.delta⟫_ℝ (lit 0) = true := by
      simpa [PyNum.le, PyNum.lit] using hd0
    split at h
    · cases h
    · rw [hle, Bool.true_or, if_pos rfl] at h
      split at h
      · cases h
      · rename_i tau htau
        cases h
        obtain ⟨b1, b2⟩ := boundary tau htau (Or.inl hd0)
        exact ⟨by simp [hs.Heta], b1.le, fun _ => b1, b2, hfirst tau⟩
  rw [not_le] at hd0
  have hle : PyNum.le ⟪s.delta, H s.delta⟫_ℝ (lit 0) = false := by
    simpa [PyNum.le, PyNum.lit] using hd0
  have hn0 : ne0 ⟪s.delta, H s.delta⟫_ℝ = true := (hne _).2 hd0.ne'
  have hdok : div s.zr ⟪s.delta, H s.delta⟫_ℝ = .ok (s.zr / ⟪s.delta, H s.delta⟫_ℝ) := by
    simp [PyNum.div, hd0.ne']
  rw [hn0, if_pos rfl, hdok] at h
  simp only [hle, Bool.false_or] at h
  set alpha := s.zr / ⟪s.delta, H s.delta⟫_ℝ with halpha
  have hePe : PyNum.add (PyNum.add s.ePe (mul (mul (lit 2) alpha) s.ePd)) (mul (alpha ^ 2) s.dPd)
      = s.ePe + 2 * alpha * s.ePd + alpha ^ 2 * s.dPd := by
    simp [PyNum.add, PyNum.mul, PyNum.lit]
  rw [hePe] at h
  split at h
  · -- trust region exceeded
    rename_i hex
    simp only [PyNum.le, decide_eq_true_eq] at hex
    split at h
    · cases h
    · rename_i tau htau
      cases h
      have hzpos : 0 < s.zr := by
        refine lt_of_le_of_ne hzr0 fun h0 => ?_
        exact hd0.ne' (hdz h0.symm)
      obtain ⟨b1, b2⟩ := boundary tau htau (Or.inr ⟨hd0, hzpos, hex⟩)
      exact ⟨by simp [hs.Heta], b1.le, fun _ => b1, b2, hfirst tau⟩
  rename_i hex
  simp only [PyNum.le, decide_eq_true_eq, not_le] at hex
  have hmodel : modelFun pb x g (s.eta + alpha • s.delta) (s.Heta + alpha • H s.delta)
      = quad g H (s.eta + alpha • s.delta) := by
    simp [modelFun, quad, hE.inner, hs.Heta, PyNum.add, PyNum.mul, PyNum.lit]
  rw [hmodel] at h
  split at h
  · cases h
    refine ⟨hs.Heta, by rw [← hs.ePe]; exact hs.bound, by rintro (⟨⟨⟩⟩ | ⟨⟨⟩⟩), ?_, fun h0 => ?_⟩
    · rw [← hs.model]; exact hs.model_le
    · exact ⟨0, by rw [(hj h0).1]; simp⟩
  rename_i hdec
  simp only [PyNum.le, decide_eq_true_eq, not_le] at hdec
  have hm0 : quad g H (s.eta + alpha • s.delta) ≤ M := hdec.le.trans hs.model_le
  split at h
  · cases h
    refine ⟨by simp [hs.Heta], by rw [hlen]; exact hex.le, ?_, hm0, hfirst alpha⟩
    split <;> (rintro (h | h) <;> cases h)
  split at h
  · cases h
  rename_i beta hbeta
  cases h
  obtain ⟨hz, rfl⟩ := hdiv _ _ _ hbeta
  have hapos : alpha ≠ 0 := div_ne_zero hz hd0.ne'
  have haH : alpha * ⟪s.delta, H s.delta⟫_ℝ = s.zr := div_mul_cancel₀ _ hd0.ne'
  -- the new residual
  set r' := s.r + alpha • H s.delta with hr'
  have perp : ∀ u ∈ S, ⟪u, r'⟫_ℝ = 0 := by
    intro u hu
    rw [hr', inner_add_right, real_inner_smul_right, hs.r_perp u hu, hs.conj u hu]
    ring
  have perpd : ⟪s.delta, r'⟫_ℝ = 0 := by
    rw [hr', inner_add_right, real_inner_smul_right, hs.delta_r, haH]
    ring
  have hzr : ⟪s.r, r'⟫_ℝ = 0 := by
    have := perp _ hs.z_mem
    rwa [inner_add_left, perpd, add_zero] at this
  set beta := ⟪r', r'⟫_ℝ / s.zr with hbeta'
  have hbz : beta * s.zr = ⟪r', r'⟫_ℝ := div_mul_cancel₀ _ hz
  have hr'eta : r' = g + H (s.eta + alpha • s.delta) := by
    rw [hr', hs.r, map_add, map_smul, add_assoc]
  have hHd : alpha • H s.delta = r' - s.r := by rw [hr']; simp
  have hmemS : ∀ u, u ∈ S ⊔ Submodule.span ℝ {s.delta} ↔ ∃ v ∈ S, ∃ a : ℝ, v + a • s.delta = u := by
    intro u
    simp only [Submodule.mem_sup, Submodule.mem_span_singleton]
    constructor
    · rintro ⟨v, hv, w, ⟨a, rfl⟩, rfl⟩
      exact ⟨v, hv, a, rfl⟩
    · rintro ⟨v, hv, a, rfl⟩
      exact ⟨v, hv, _, ⟨a, rfl⟩, rfl⟩
  have perp' : ∀ u ∈ S ⊔ Submodule.span ℝ {s.delta}, ⟪u, r'⟫_ℝ = 0 := by
    intro u hu
    obtain ⟨v, hv, a, rfl⟩ := (hmemS u).1 hu
    rw [inner_add_left, real_inner_smul_left, perp v hv, perpd]
    ring
  have hS : ∀ u ∈ S, u ∈ S ⊔ Submodule.span ℝ {s.delta} := fun u hu => Submodule.mem_sup_left hu
  have hdS : s.delta ∈ S ⊔ Submodule.span ℝ {s.delta} :=
    Submodule.mem_sup_right (Submodule.mem_span_singleton_self _)
  have conj1 : ∀ u ∈ S, ⟪u, H (-r' + beta • s.delta)⟫_ℝ = 0 := by
    intro u hu
    obtain ⟨k, hk⟩ := hs.krylov u hu
    have h1 : ⟪H u, r'⟫_ℝ = 0 := by
      have h2 := perp _ hk
      rw [inner_sub_left, real_inner_smul_left, perpd, mul_zero, sub_zero] at h2
      exact h2
    rw [map_add, map_neg, map_smul, inner_add_right, inner_neg_right, real_inner_smul_right,
      hs.conj u hu, ← hsym, h1]
    ring
  have conj2 : ⟪s.delta, H (-r' + beta • s.delta)⟫_ℝ = 0 := by
    have h1 : alpha * ⟪H s.delta, r'⟫_ℝ = ⟪r', r'⟫_ℝ := by
      rw [← real_inner_smul_left, hHd, inner_sub_left, hzr, sub_zero]
    have h2 : alpha * ⟪s.delta, H (-r' + beta • s.delta)⟫_ℝ = 0 := by
      rw [map_add, map_neg, map_smul, inner_add_right, inner_neg_right, real_inner_smul_right,
        ← hsym s.delta r', mul_add, mul_neg, h1,
        show alpha * (beta * ⟪s.delta, H s.delta⟫_ℝ) = beta * (alpha * ⟪s.delta, H s.delta⟫_ℝ) by
          ring, haH, hbz]
      ring
    exact (mul_eq_zero.1 h2).resolve_left hapos
  have hetam : s.eta + alpha • s.delta - e0 ∈ S ⊔ Submodule.span ℝ {s.delta} := by
    rw [show s.eta + alpha • s.delta - e0 = (s.eta - e0) + alpha • s.delta by module]
    exact Submodule.add_mem _ (hS _ hs.eta_mem) (Submodule.smul_mem _ _ hdS)
  refine ⟨?_, hfirst alpha⟩
  change ∃ S', RInv e0 d0 k g H Delta M S' ⟨s.eta + alpha • s.delta, s.Heta + alpha • H s.delta, r',
    s.ePe + 2 * alpha * s.ePd + alpha ^ 2 * s.dPd, ⟪r', r'⟫_ℝ,
    ⟪r', r'⟫_ℝ + beta * beta * s.dPd, -r' + beta • s.delta,
    beta * (s.ePd + alpha * s.dPd), quad g H (s.eta + alpha • s.delta)⟩
  clear_value r' beta
  refine ⟨S ⊔ Submodule.span ℝ {s.delta}, ⟨?_, hr'eta, hetam, ?_, perp', ?_, rfl, ?_, ?_, ?_, ?_, ?_,
    ?_, ?_, rfl, hm0⟩⟩
  · simp [hs.Heta]
  · exact Submodule.mem_sup_left hs.d0_mem
  · intro u hu
    obtain ⟨v, hv, a, rfl⟩ := (hmemS u).1 hu
    rw [inner_add_left, real_inner_smul_left, conj1 v hv, conj2]
    ring
  · simp only
    rw [inner_add_left, inner_neg_left, real_inner_smul_left, perpd]
    ring
  · simp only
    rw [add_neg_cancel_left]
    exact Submodule.smul_mem _ _ hdS
  · intro u hu
    obtain ⟨v, hv, a, rfl⟩ := (hmemS u).1 hu
    obtain ⟨k, hk⟩ := hs.krylov v hv
    have h1 : H s.delta = alpha⁻¹ • (r' - s.r) := by
      rw [← hHd, smul_smul, inv_mul_cancel₀ hapos, one_smul]
    refine ⟨-(a * alpha⁻¹), ?_⟩
    have h2 : H (v + a • s.delta) - -(a * alpha⁻¹) • (-r' + beta • s.delta)
        = (H v - k • s.delta) + (-(a * alpha⁻¹)) • (s.r + s.delta)
          + (k + a * alpha⁻¹ + a * alpha⁻¹ * beta) • s.delta := by
      rw [map_add, map_smul, h1]
      module
    simp only
    rw [h2]
    exact Submodule.add_mem _ (Submodule.add_mem _ (hS _ hk)
      (Submodule.smul_mem _ _ (hS _ hs.z_mem))) (Submodule.smul_mem _ _ hdS)
  · exact (hlen alpha).symm
  · simp only
    rw [norm_add_smul_sq, norm_neg, inner_neg_left, real_inner_comm s.delta r', perpd, hs.dPd,
      real_inner_self_eq_norm_sq]
    ring
  · simp only
    rw [inner_add_right, inner_neg_right, perp' _ (Submodule.add_mem _ hetam
      (Submodule.smul_mem _ _ hs.d0_mem)), real_inner_smul_right, hs.ePd, hs.dPd,
      show s.eta + alpha • s.delta - e0 + k • d0 = (s.eta - e0 + k • d0) + alpha • s.delta by module,
      inner_add_left (s.eta - e0 + k • d0) (alpha • s.delta), real_inner_smul_left,
      real_inner_self_eq_norm_sq]
    ring
  · exact hex.le

theorem tcgLoop_rinv (hE : ExactAt pb x H) (hrand : c.useRand = true)
    (hsym : ∀ u v, ⟪H u, v⟫_ℝ = ⟪u, H v⟫_ℝ)
    (n j : ℕ) {s : TCGState ℝ V} (hs : ∃ S, RInv e0 d0 k g H Delta M S s)
    (hj : j = 0 → s.eta = e0 ∧ s.delta = d0) (hj1 : j = 1 → ∃ a : ℝ, s.eta = e0 + a • d0)
    {o : TCGOut V}
    (h : tcgLoop c pb x g Delta normr0 mininner n j s = .ok o) : RPost e0 d0 k g H Delta M o := by
  induction n generalizing j s with
  | zero =>
    obtain ⟨S, hs⟩ := hs
    cases j with
    | zero => cases h
    | succ j =>
      cases h
      refine ⟨hs.Heta, by rw [← hs.ePe]; exact hs.bound, by rintro (⟨⟨⟩⟩ | ⟨⟨⟩⟩), ?_, fun h0 => ?_⟩
      · rw [← hs.model]; exact hs.model_le
      · exact hj1 (by simp only at h0; omega)
  | succ n ih =>
    obtain ⟨S, hs⟩ := hs
    unfold tcgLoop at h
    split at h
    · cases h
    · rename_i o' ho
      cases h
      exact tcgBody_rinv hE hrand hsym hs hj ho
    · rename_i s' hs'
      obtain ⟨h1, h2⟩ := tcgBody_rinv hE hrand hsym hs hj hs'
      exact ih (j + 1) h1 (by omega) (fun h => h2 (by omega)) h

/-- The invariant holds at the start. -/
theorem tcg_rpost (hE : ExactAt pb x H) (hrand : c.useRand = true)
    (hsym : ∀ u v, ⟪H u, v⟫_ℝ = ⟪u, H v⟫_ℝ) (he : ‖e0‖ ≤ Delta) {maxinner : ℤ} {o : TCGOut V}
    (h : tcg c pb x g e0 Delta mininner maxinner = .ok o) :
    ∃ k, ⟪e0 - k • -(g + H e0), g + H e0⟫_ℝ = 0 ∧
      RPost e0 (-(g + H e0)) k g H Delta (quad g H e0) o := by
  set d0 := -(g + H e0) with hd0
  refine ⟨⟪e0, d0⟫_ℝ / ‖d0‖ ^ 2, ?_, ?_⟩
  · rw [show g + H e0 = -d0 by rw [hd0, neg_neg], inner_neg_right, inner_sub_left,
      real_inner_smul_left, real_inner_self_eq_norm_sq]
    by_cases h0 : d0 = 0
    · simp [h0]
    · rw [div_mul_cancel₀ _ (by positivity)]
      ring
  · have hperp : ⟪e0, d0⟫_ℝ / ‖d0‖ ^ 2 * ‖d0‖ ^ 2 = ⟪e0, d0⟫_ℝ := by
      by_cases h0 : d0 = 0
      · simp [h0]
      · exact div_mul_cancel₀ _ (by positivity)
    set k := ⟪e0, d0⟫_ℝ / ‖d0‖ ^ 2 with hk
    unfold tcg at h
    have hinit : tcgInit c pb x g e0 = ⟨e0, H e0, g + H e0, ⟪e0, e0⟫_ℝ,
        ⟪g + H e0, g + H e0⟫_ℝ, ⟪g + H e0, g + H e0⟫_ℝ, d0, ⟪e0, d0⟫_ℝ, quad g H e0⟩ := by
      unfold tcgInit
      simp [hrand, hE.hess, hE.inner, hE.add, hE.neg, modelFun, quad, PyNum.add, PyNum.mul,
        PyNum.lit, hd0]
    rw [hinit] at h
    refine tcgLoop_rinv hE hrand hsym _ 0 ⟨⊥, ?_⟩ (fun _ => ⟨rfl, rfl⟩) (by omega) h
    refine ⟨rfl, rfl, by simp, ?_, by simp, by simp, rfl, ?_, ?_, by simp, ?_, ?_, ?_, ?_, rfl,
      le_rfl⟩
    · exact Submodule.mem_sup_right (Submodule.mem_span_singleton_self _)
    · simp only [hd0, inner_neg_left]
    · simp [hd0]
    · simp only [sub_self, zero_add]
      rw [norm_sub_sq_real, real_inner_smul_right, norm_smul, mul_pow, Real.norm_eq_abs, sq_abs,
        real_inner_self_eq_norm_sq]
      linear_combination (-2 * k) * hperp
    · simp only [hd0, norm_neg, real_inner_self_eq_norm_sq]
    · simp only [sub_self, zero_add, real_inner_smul_left, real_inner_self_eq_norm_sq, hperp]
    · simp only [real_inner_self_eq_norm_sq]
      exact pow_le_pow_left₀ (norm_nonneg _) he 2

/-- **C103** (what holds) With `use_rand` and a start in the trust region, the step leaves the trust
region by no more than the length of the start, and its norm is at most `√2 * Delta`; it stays in
the region if the solver stops in its first iteration.  The second component returned is the
Hessian applied to the step, and the model is not above its value at the start.  Missing: the bound
`Delta` itself, which is false (`C103_use_rand_leaves_region`). -/
theorem C103_use_rand_partial (hE : ExactAt pb x H) (hrand : c.useRand = true)
    (hsym : ∀ u v, ⟪H u, v⟫_ℝ = ⟪u, H v⟫_ℝ) (he : ‖e0‖ ≤ Delta) {maxinner : ℤ} {o : TCGOut V}
    (h : tcg c pb x g e0 Delta mininner maxinner = .ok o) :
    ‖o.eta‖ ≤ Delta + ‖e0‖ ∧ ‖o.eta‖ ^ 2 ≤ 2 * Delta ^ 2 ∧ (o.j = 0 → ‖o.eta‖ ≤ Delta) ∧
      ((o.stop = .negativeCurvature ∨ o.stop = .exceededTR) → Delta ^ 2 ≤ ‖o.eta‖ ^ 2 + 2 * Delta * ‖e0‖) ∧
      o.Heta = H o.eta ∧ quad g H o.eta ≤ quad g H e0 := by
  obtain ⟨k, hk, hp⟩ := tcg_rpost hE hrand hsym he h
  have hD : 0 ≤ Delta := (norm_nonneg _).trans he
  set d0 := -(g + H e0) with hd0
  have hb := hp.bound
  have hbd := hp.boundary
  have hf := hp.first
  set u := o.eta - e0 + k • d0 with hu
  set w := e0 - k • d0 with hw
  have hsum : o.eta = u + w := by rw [hu, hw]; module
  have hwd : ⟪w, d0⟫_ℝ = 0 := by rw [hd0, inner_neg_right, hk, neg_zero]
  have hwe : ‖w‖ ≤ ‖e0‖ := by
    have h1 : ‖e0‖ ^ 2 = ‖w‖ ^ 2 + k ^ 2 * ‖d0‖ ^ 2 := by
      have : e0 = w + k • d0 := by rw [hw]; module
      rw [this, norm_add_smul_sq, hwd]
      ring
    have h2 : 0 ≤ k ^ 2 * ‖d0‖ ^ 2 := by positivity
    exact abs_le_of_sq_le_sq' (by linarith) (norm_nonneg _) |>.2
  have hu1 : ‖u‖ ≤ Delta :=
    abs_le_of_sq_le_sq' (by nlinarith [sq_nonneg ‖w‖]) hD |>.2
  have hin : ⟪u, w⟫_ℝ ≤ ‖u‖ * ‖w‖ := real_inner_le_norm u w
  have hn : ‖o.eta‖ ^ 2 = ‖u‖ ^ 2 + 2 * ⟪u, w⟫_ℝ + ‖w‖ ^ 2 := by rw [hsum, norm_add_sq_real]
  refine ⟨?_, ?_, ?_, ?_, hp.Heta, hp.model_le⟩
  · rw [hsum]
    exact (norm_add_le u w).trans (add_le_add hu1 hwe)
  · nlinarith [sq_nonneg (‖u‖ - ‖w‖)]
  · intro hj
    obtain ⟨a, ha⟩ := hf hj
    have : ⟪u, w⟫_ℝ = 0 := by
      rw [hu, ha, show e0 + a • d0 - e0 + k • d0 = (a + k) • d0 by module, real_inner_smul_left,
        real_inner_comm, hwd, mul_zero]
    rw [this] at hn
    exact abs_le_of_sq_le_sq' (by linarith) hD |>.2
  · intro hs
    have h1 := hbd hs
    have h2 : -(‖u‖ * ‖w‖) ≤ ⟪u, w⟫_ℝ := by
      have := abs_real_inner_le_norm u w
      exact (abs_le.1 this).1
    have : ‖u‖ * ‖w‖ ≤ Delta * ‖e0‖ := mul_le_mul hu1 hwe (norm_nonneg _) hD
    linarith

/-- **C103** (what holds) The step kept after the comparison with the Cauchy point: it leaves the
trust region by no more than the length of the start, and the model predicts no increase. -/
theorem C103_kept_partial (hE : ExactAt pb x H) (hrand : c.useRand = true)
    (hsym : ∀ u v, ⟪H u, v⟫_ℝ = ⟪u, H v⟫_ℝ) (hg : g ≠ 0) (hD : 0 < Delta) (he : ‖e0‖ ≤ Delta)
    {maxinner : ℤ} {o : TCGOut V} (h : tcg c pb x g e0 Delta mininner maxinner = .ok o) (fx : ℝ) :
    ∃ eta, cauchy pb x fx g ‖g‖ Delta o = .ok (eta, H eta) ∧ ‖eta‖ ≤ Delta + ‖e0‖ ∧
      ⟪eta, g⟫_ℝ + 1 / 2 * ⟪eta, H eta⟫_ℝ ≤ 0 ∧
      ∀ t : ℝ, 0 ≤ t → ‖t • -g‖ ≤ Delta → quad g H eta ≤ quad g H (t • -g) := by
  obtain ⟨h1, -, -, -, h5, -⟩ := C103_use_rand_partial hE hrand hsym he h
  obtain ⟨eta, a1, a2, -, a4⟩ := C104_cauchy_point hE hg hD h5 fx
  refine ⟨eta, a1, a2.trans (max_le h1 (by linarith [norm_nonneg e0])), ?_, a4⟩
  have := a4 0 le_rfl (by simpa using hD.le)
  simpa [quad] using this

end

/-! ### Examples -/

/-- The hypotheses of C141 can be met, with a draw that has to be scaled twice. -/
example : (∀ a v, realMfd.norm 0 (realMfd.smul a v) = |a| * realMfd.norm 0 v) ∧
    (∀ a b v, realMfd.smul a (realMfd.smul b v) = realMfd.smul (a * b) v) ∧
    (1 / 10 ^ 12 : ℝ) < realMfd.norm 0 (1 / 10 ^ 6 * (1 / 2 ^ 13 : ℝ)) := by
  refine ⟨fun a v => ?_, fun a b v => ?_, ?_⟩
  · simp [realMfd, abs_mul]
  · simp [realMfd, mul_assoc]
  · norm_num [realMfd, abs_of_pos]

/-- The hypotheses of C103 can be met with a start other than zero and a step to the boundary. -/
example : ExactAt realQuad 1 LinearMap.id ∧ ‖(1 / 8 : ℝ)‖ ≤ 1 / 2 ∧
    ∃ o, tcg { realTR with useRand := true } realQuad 1 1 (1 / 8 : ℝ) (1 / 2) 1 1 = .ok o ∧
      o.stop = .exceededTR := by
  refine ⟨realQuad_exact, by norm_num [abs_of_pos], ?_⟩
  norm_num [tcg, tcgLoop, tcgBody, tcgInit, realTR, realQuad, realMfd, PyNum.div, PyNum.lit,
    PyNum.le, PyNum.add, PyNum.mul, PyNum.pow, PyNum.neg, PyNum.sub, ne0]

end Verif.Opt
