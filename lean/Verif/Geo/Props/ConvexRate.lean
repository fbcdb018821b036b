/-
C156 on manifolds: costs that are convex along geodesics, on Euclidean space, on positive arrays, on the
Poincaré ball and on positive definite matrices.
-/
import Verif.Opt.Props.SDConvex
import Verif.Geo.Props.Progress
import Mathlib.Analysis.Convex.Deriv
import Mathlib.Analysis.Convex.Mul
import Mathlib.Analysis.Convex.SpecificFunctions.Basic

namespace Verif.Geo
open Matrix Verif.Opt
open scoped ComplexOrder

variable {κ ι : Type*} {𝕜 : Type*} [RCLike 𝕜]

/-! ## Lemmas -/

/-- A convex function of one variable decreases at most as fast as it does at the start. -/
theorem gap_of_curve {φ : ℝ → ℝ} (hφ : ConvexOn ℝ (Set.Icc 0 1) φ) {s g n D : ℝ}
    (hd : HasDerivAt φ s 0) (hs : s ^ 2 ≤ g ^ 2 * n ^ 2) (hg : 0 ≤ g) (hn : 0 ≤ n) (hD : n ≤ D) :
    φ 0 - φ 1 ≤ D * g := by
  have h1 := hφ.le_slope_of_hasDerivAt (x := 0) (y := 1) (by simp) (by simp) one_pos hd
  rw [slope_def_field] at h1
  have h2 : |s| ≤ g * n := by
    refine abs_le_of_sq_le_sq ?_ (by positivity)
    nlinarith
  have h3 := (abs_le.1 h2).1
  have h4 : g * n ≤ D * g := by nlinarith
  simp at h1
  linarith

/-- Cauchy–Schwarz on a subspace. -/
theorem IsInnerOn.cauchy {E : Type*} [AddCommGroup E] [Module ℝ E] {T : E → Prop} {B : E → E → ℝ}
    (hT : IsSubspace T) (h : IsInnerOn T B) {u v : E} (hu : T u) (hv : T v) :
    B u v ^ 2 ≤ B u u * B v v := by
  by_cases h0 : B v v = 0
  · have e := h.definite v hv h0
    have : B u v = 0 := by
      rw [h.symm u v hu hv, e]
      simpa using h.smul_left 0 0 u hT.zero hu
    rw [this, h0]
    simp
  · have hpos : 0 < B v v := lt_of_le_of_ne (h.nonneg v hv) (Ne.symm h0)
    have hw : ∀ a b : ℝ, T (a • u + b • v) := fun a b => hT.add (hT.smul a hu) (hT.smul b hv)
    have h1 := h.nonneg _ (hw (B v v) (-B u v))
    have h2 : ∀ a b : ℝ, ∀ x, T x → B (a • u + b • v) x = a * B u x + b * B v x := fun a b x hx => by
      rw [h.add_left _ _ _ (hT.smul a hu) (hT.smul b hv) hx, h.smul_left _ _ _ hu hx,
        h.smul_left _ _ _ hv hx]
    rw [h2 _ _ _ (hw _ _), h.symm u _ hu (hw _ _), h.symm v _ hv (hw _ _), h2 _ _ _ hu, h2 _ _ _ hv,
      h.symm v u hv hu] at h1
    nlinarith

/-! ## Geodesically convex costs -/

/-- **C156** (Euclidean) A convex cost on Euclidean space; `D` bounds the distance to `z`. -/
theorem C156_euclidean [Fintype ι] (dim : ℤ) {cost : (ι → ℝ) → ℝ} {egrad : (ι → ℝ) → ι → ℝ}
    (ehess : (ι → ℝ) → (ι → ℝ) → ι → ℝ) (hc : ConvexOn ℝ Set.univ cost)
    (hf : ∀ x, EGrad cost x (egrad x)) {z : ι → ℝ} {f0 D : ℝ}
    (hD : ∀ y, cost y ≤ f0 → eucDist y z ≤ D) :
    GapDominated (arrayProb (euclideanMfd dim) (subE2rg eucProj) eucE2rh (fun _ v => v) cost egrad
      ehess) (fun _ => True) f0 (cost z) D := by
  intro y _ hy
  have h1 := C110_euclidean (hf y) (z - y)
  have h2 : ConvexOn ℝ (Set.Icc 0 1) fun t : ℝ => cost (eucExp y (t • (z - y))) := by
    have h3 := (hc.comp_affineMap (AffineMap.lineMap y z)).subset (Set.subset_univ (Set.Icc 0 1))
      (convex_Icc 0 1)
    refine h3.congr fun t _ => ?_
    simp [eucExp, AffineMap.lineMap_apply, add_comm]
  have h3 := gap_of_curve h2 h1 (g := npNorm (subE2rg eucProj y (egrad y))) (n := npNorm (z - y))
    (D := D) ?_ (npNorm_nonneg _) (npNorm_nonneg _) ?_
  · have e : ∀ v, y + v = eucExp y v := fun _ => rfl
    rw [one_smul, zero_smul, ← e, ← e, add_zero, add_sub_cancel] at h3
    exact h3
  · rw [npNorm_sq_real, npNorm_sq_real]
    exact tensordot_inner.cauchy _ _
  · have h4 := hD y hy
    rw [eucDist] at h4
    refine le_trans (le_of_eq ?_) h4
    rw [← neg_sub, npNorm_eq_sqrt, npNorm_eq_sqrt, tensordot_inner.neg_left,
      tensordot_inner.neg_right, neg_neg]

/-- **C156** (positive arrays) A cost that is convex along the geodesics `exp`. -/
theorem C156_positive [Fintype ι] (dim : ℤ) (parallel : Bool)
    (pairMean : (ι → ℝ) → (ι → ℝ) → ι → ℝ) {cost : (ι → ℝ) → ℝ} {egrad : (ι → ℝ) → ι → ℝ}
    (ehess : (ι → ℝ) → (ι → ℝ) → ι → ℝ)
    (hc : ∀ x v, PosPoint x → ConvexOn ℝ (Set.Icc 0 1) fun t : ℝ => cost (posExp x (t • v)))
    (hf : ∀ x, PosPoint x → EGrad cost x (egrad x)) {z : ι → ℝ} (hz : PosPoint z) {f0 D : ℝ}
    (hD : ∀ y, PosPoint y → cost y ≤ f0 → posDist y z ≤ D) :
    GapDominated (arrayProb (positiveMfd dim parallel pairMean) posE2rg posE2rh (fun _ v => v) cost
      egrad ehess) PosPoint f0 (cost z) D := by
  intro y hyp hy
  obtain ⟨-, h0, -, h1, -⟩ := C78_exp_log y z 0 hyp hz
  have hm := C78_metric y hyp
  have h2 := gap_of_curve (hc y (posLog y z) hyp) (C110_positive hyp (hf y hyp) (posLog y z)).2
    (g := posNorm y (posE2rg y (egrad y))) (n := posNorm y (posLog y z)) ?_ (Real.sqrt_nonneg _)
    (Real.sqrt_nonneg _) (h1.trans_le (hD y hyp hy))
  · rw [one_smul, h0, zero_smul] at h2
    rwa [show posExp y 0 = y by funext i; simp [posExp]] at h2
  · rw [hm.2, hm.2]
    exact hm.1.cauchy _ _

/-- **C156** (Poincaré ball) A cost that is convex along the geodesics `exp`, as a function of the array
of coordinates. -/
theorem C156_poincare [Fintype κ] [Fintype ι] (dim : ℤ)
    (transport : (κ → ι → ℝ) → (κ → ι → ℝ) → (κ → ι → ℝ) → κ → ι → ℝ)
    (log pairMean : (κ → ι → ℝ) → (κ → ι → ℝ) → κ → ι → ℝ) {f : (κ × ι → ℝ) → ℝ}
    {egrad : (κ → ι → ℝ) → κ → ι → ℝ} (ehess : (κ → ι → ℝ) → (κ → ι → ℝ) → κ → ι → ℝ)
    (hc : ∀ X V, InBalls X →
      ConvexOn ℝ (Set.Icc 0 1) fun t : ℝ => f fun x => pbExp X (t • V) x.1 x.2)
    (hf : ∀ X, InBalls X → EGrad f (fun x => X x.1 x.2) fun x => egrad X x.1 x.2)
    {Z : κ → ι → ℝ} (hZ : InBalls Z) {f0 D : ℝ}
    (hD : ∀ Y, InBalls Y → (f fun x => Y x.1 x.2) ≤ f0 → pbDist Y Z ≤ D) :
    GapDominated (arrayProb (poincareMfd dim transport log pairMean) pbE2rg pbE2rh (fun _ v => v)
      (fun X => f fun x => X x.1 x.2) egrad ehess) InBalls f0 (f fun x => Z x.1 x.2) D := by
  intro Y hY hy
  obtain ⟨V, hV⟩ : ∃ V, pbExp Y V = Z := by
    refine ⟨fun k => if Y k = Z k then 0 else (pbLog1 (Y k) (Z k)).getD 0, funext fun k => ?_⟩
    by_cases hk : Y k = Z k
    · have h0 : pbExp1 (Y k) 0 = Y k := congrFun (C87_stays Y 0 hY).2.1 k
      simp only [pbExp, if_pos hk]
      rw [h0, hk]
    · have := exp1_log1 (hY k) (hZ k) (log1_eq (hY k) (hZ k) hk)
      simp only [pbExp, if_neg hk, log1_eq (hY k) (hZ k) hk]
      exact this
  have h1 := (C88_log_exp Y V hY).1
  rw [hV] at h1
  have hI := pbInner_inner Y hY
  have hsq : ∀ W, pbNorm Y W ^ 2 = pbInner Y W W := fun W => Real.sq_sqrt (hI.nonneg W)
  have h2 := gap_of_curve (hc Y V hY) (C110_poincare hY (hf Y hY) V)
    (g := pbNorm Y (pbE2rg Y (egrad Y))) (n := pbNorm Y V) ?_ (Real.sqrt_nonneg _)
    (Real.sqrt_nonneg _) (h1.symm.trans_le (hD Y hY hy))
  · have h0 : pbExp Y 0 = Y := (C87_stays Y 0 hY).2.1
    rw [one_smul, hV, zero_smul, h0] at h2
    exact h2
  · rw [hsq, hsq]
    exact hI.cauchy _ _

/-- **C156** (symmetric and Hermitian positive definite) A cost that is convex along the geodesics
`exp`, on a set `On` of points whose distance to `Z` is bounded by `D`. -/
theorem C156_positive_definite [Fintype κ] {n : ℕ} (dim : ℤ)
    (log pairMean : Stack κ (Fin n) (Fin n) 𝕜 → Stack κ (Fin n) (Fin n) 𝕜 → Stack κ (Fin n) (Fin n) 𝕜)
    {cost : Stack κ (Fin n) (Fin n) 𝕜 → ℝ}
    {egrad : Stack κ (Fin n) (Fin n) 𝕜 → Stack κ (Fin n) (Fin n) 𝕜}
    (ehess : Stack κ (Fin n) (Fin n) 𝕜 → Stack κ (Fin n) (Fin n) 𝕜 → Stack κ (Fin n) (Fin n) 𝕜)
    (hc : ∀ P V, PDPoint P → HermStack V →
      ConvexOn ℝ (Set.Icc 0 1) fun t : ℝ => cost (pdExp P (t • V)))
    (hf : ∀ P, PDPoint P → EGradStack cost P (egrad P)) {Z : Stack κ (Fin n) (Fin n) 𝕜}
    (hZ : PDPoint Z) {On : Stack κ (Fin n) (Fin n) 𝕜 → Prop} (hOn : ∀ Y, On Y → PDPoint Y) {f0 D : ℝ}
    (hD : ∀ Y, On Y → cost Y ≤ f0 → ∀ d, IsPdDist Y Z d → d ≤ D) :
    GapDominated (arrayProb (positiveDefiniteMfd dim log pairMean) pdE2rg pdE2rh (fun _ v => v) cost
      egrad ehess) On f0 (cost Z) D := by
  intro Y hY hy
  have hYp := hOn Y hY
  obtain ⟨⟨V, hV⟩, ⟨d, hd⟩⟩ := C82_total hYp hZ
  obtain ⟨hVh, hVe⟩ := C82_exp_log hZ hV
  have hdV := C82_dist_log hYp hZ hV hd
  obtain ⟨hI, -, hN⟩ := C81_metric Y hYp
  have hG := (C84_gradient Y (egrad Y) hYp).1
  have h2 := gap_of_curve (hc Y V hYp hVh) (C110_positive_definite hYp (hf Y hYp) hVh).2
    (g := pdNorm Y (pdE2rg Y (egrad Y))) (n := pdNorm Y V) ?_ (hN _ hG).2 (hN _ hVh).2
    (hdV.symm.trans_le (hD Y hY hy d hd))
  · have h0 : pdExp Y 0 = Y := (C82_exp Y V hYp hVh).2
    rw [one_smul, hVe, zero_smul, h0] at h2
    exact h2
  · rw [(hN _ hG).1, (hN _ hVh).1]
    exact hI.cauchy hermStack_subspace hG hVh

/-! ## Non-vacuity -/

/-- A fourth power, which is not strongly convex; where it is at most one, `D = 1`. -/
example : GapDominated (arrayProb (euclideanMfd 1) (subE2rg eucProj) eucE2rh (fun _ v => v)
    (fun x : Fin 1 → ℝ => x 0 ^ 4) (fun x => ![4 * x 0 ^ 3]) (fun x v => ![12 * x 0 ^ 2 * v 0]))
    (fun _ => True) 1 ((0 : Fin 1 → ℝ) 0 ^ 4) 1 := by
  refine C156_euclidean 1 _ ?_ (fun x c d hc h0 => ?_) fun y hy => ?_
  · exact (Even.convexOn_pow (𝕜 := ℝ) (by decide : Even 4)).comp_linearMap
      (LinearMap.proj (R := ℝ) (φ := fun _ : Fin 1 => ℝ) 0)
  · have h := (hc 0).fun_pow 4
    have e : c 0 0 = x 0 := by rw [h0]
    refine h.congr_deriv ?_
    rw [e]
    simp
  · rw [eucDist, npNorm_eq_sqrt]
    refine Real.sqrt_le_one.2 ?_
    simp [tensordot]
    nlinarith [sq_nonneg (y 0 ^ 2 - 1)]

/-- The squares of the logarithms, on positive arrays. -/
example [Fintype ι] (dim : ℤ) (parallel : Bool) (pairMean : (ι → ℝ) → (ι → ℝ) → ι → ℝ)
    (ehess : (ι → ℝ) → (ι → ℝ) → ι → ℝ) :
    GapDominated (arrayProb (positiveMfd dim parallel pairMean) posE2rg posE2rh (fun _ v => v)
      (fun x : ι → ℝ => ∑ i, Real.log (x i) ^ 2) (fun x i => 2 * Real.log (x i) / x i)
      ehess) PosPoint 1 (∑ i, Real.log ((1 : ι → ℝ) i) ^ 2) 1 := by
  refine C156_positive dim parallel pairMean ehess (fun x v hx => ?_) (fun x hx c d hc h0 => ?_)
    (fun _ => one_pos) fun y hy h => ?_
  · have e : (fun t : ℝ => ∑ i, Real.log (posExp x (t • v) i) ^ 2) =
        fun t => ∑ i, (Real.log (x i) + t * (v i / x i)) ^ 2 := by
      funext t
      refine Finset.sum_congr rfl fun i _ => ?_
      rw [posExp, Real.log_mul (hx i).ne' (Real.exp_pos _).ne', Real.log_exp]
      simp [mul_div_assoc]
    rw [e]
    refine ⟨convex_Icc 0 1, fun a _ b _ p q hp hq hpq => ?_⟩
    simp only [smul_eq_mul]
    rw [Finset.mul_sum, Finset.mul_sum, ← Finset.sum_add_distrib]
    refine Finset.sum_le_sum fun i _ => ?_
    obtain rfl : q = 1 - p := by linarith
    nlinarith [mul_nonneg (mul_nonneg hp hq) (sq_nonneg ((a - b) * (v i / x i)))]
  · refine HasDerivAt.fun_sum fun i _ => ?_
    have e : c 0 i = x i := by rw [h0]
    have h := ((hc i).log (by rw [e]; exact (hx i).ne')).fun_pow 2
    refine h.congr_deriv ?_
    rw [e]
    simp
    ring
  · rw [posDist]
    refine Real.sqrt_le_one.2 ?_
    simpa [tensordot, ← sq] using h

/-- The trace, on positive definite matrices within distance one of the identity. -/
example [Fintype κ] {n : ℕ} (dim : ℤ)
    (log pairMean : Stack κ (Fin n) (Fin n) 𝕜 → Stack κ (Fin n) (Fin n) 𝕜 → Stack κ (Fin n) (Fin n) 𝕜)
    (f0 : ℝ) : GapDominated (arrayProb (positiveDefiniteMfd dim log pairMean) pdE2rg pdE2rh
      (fun _ v => v) (fun P => ∑ k, RCLike.re (P k).trace) (fun _ _ => 1) (fun _ _ => 0))
      (fun P => PDPoint P ∧ ∀ d, IsPdDist P (fun _ => 1) d → d ≤ 1) f0
      (∑ _k : κ, RCLike.re (1 : Matrix (Fin n) (Fin n) 𝕜).trace) 1 := by
  refine C156_positive_definite dim log pairMean _ (fun P V hP hV => ?_) (fun P _ c d hc h0 => ?_)
    (fun _ => PosDef.one) (fun _ h => h.1) fun Y hY _ d hd => hY.2 d hd
  · have hk : ∀ k, ∃ (w a : Fin n → ℝ), (∀ i, 0 ≤ a i) ∧ ∀ t : ℝ,
        RCLike.re (pdExp P (t • V) k).trace = ∑ i, a i * Real.exp (t * w i) := by
      intro k
      obtain ⟨C, hC, hu⟩ := exists_factor (hP k)
      obtain ⟨w, v, h⟩ := exists_isEigh (A := whiten C (V k)) (whiten_herm (hV.k k))
      refine ⟨w, fun i => RCLike.re ((vᴴ * (Cᴴ * C) * v) i i), fun i => ?_, fun t => ?_⟩
      · have := (posSemidef_conjTranspose_mul_self (C * v)).diag_nonneg (i := i)
        rw [conjTranspose_mul] at this
        have e : vᴴ * (Cᴴ * C) * v = vᴴ * Cᴴ * (C * v) := by simp only [Matrix.mul_assoc]
        rw [e]
        exact (RCLike.nonneg_iff.1 this).1
      · have h1 : IsEigh (whiten C ((t • V) k)) (fun i => t * w i) v := by
          refine ⟨h.orth, ?_⟩
          rw [show (t • V) k = t • V k from rfl, whiten_smul, h.prod, ← Matrix.smul_mul,
            ← Matrix.mul_smul]
          congr 2
          ext i j
          by_cases hij : i = j
          · subst hij
            simp [RCLike.real_smul_eq_coe_mul]
          · simp [hij]
        rw [pdExp_apply, exp_solve hu hC, exp_spectral h1, spectral,
          show C * (v * diagonal (fun i => ((Real.exp (t * w i) : ℝ) : 𝕜)) * vᴴ) * Cᴴ =
            C * v * diagonal (fun i => ((Real.exp (t * w i) : ℝ) : 𝕜)) * (vᴴ * Cᴴ) by
              simp only [Matrix.mul_assoc], trace_mul_comm, ← Matrix.mul_assoc, trace, map_sum]
        refine Finset.sum_congr rfl fun i _ => ?_
        rw [diag_apply, mul_diagonal, RCLike.re_mul_ofReal]
        simp only [Matrix.mul_assoc]
    choose w a ha h using hk
    have e : (fun t : ℝ => ∑ k, RCLike.re (pdExp P (t • V) k).trace) =
        fun t => ∑ k, ∑ i, a k i * Real.exp (t * w k i) := by
      funext t
      exact Finset.sum_congr rfl fun k _ => h k t
    rw [e]
    refine ⟨convex_Icc 0 1, fun x _ y _ p q hp hq hpq => ?_⟩
    simp only [smul_eq_mul, Finset.mul_sum]
    rw [← Finset.sum_add_distrib]
    refine Finset.sum_le_sum fun k _ => ?_
    rw [← Finset.sum_add_distrib]
    refine Finset.sum_le_sum fun i _ => ?_
    have h1 := convexOn_exp.2 (Set.mem_univ (x * w k i)) (Set.mem_univ (y * w k i)) hp hq hpq
    simp only [smul_eq_mul] at h1
    rw [show (p * x + q * y) * w k i = p * (x * w k i) + q * (y * w k i) by ring]
    linarith [mul_le_mul_of_nonneg_left h1 (ha k i)]
  · refine HasDerivAt.fun_sum fun k _ => ?_
    simp only [trace, diag_apply, map_sum]
    refine HasDerivAt.fun_sum fun i _ => ?_
    have e : ∑ j, RCLike.re (star ((1 : Matrix (Fin n) (Fin n) 𝕜) i j) * d k i j) =
        RCLike.re (d k i i) := by
      rw [Finset.sum_eq_single i (fun j _ hj => by simp [one_apply_ne hj.symm]) (by simp)]
      simp
    rw [e]
    exact RCLike.reCLM.hasFDerivAt.comp_hasDerivAt 0 (hc k i i)

end Verif.Geo
