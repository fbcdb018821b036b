/-
Second order expansions of curves at time zero, and of functions along them.
-/
import Verif.Geo.Lemmas.MatrixCalc
import Mathlib.Analysis.Calculus.FDeriv.Symmetric
import Mathlib.Analysis.Calculus.MeanValue
import Mathlib.Analysis.SpecialFunctions.Trigonometric.Bounds

namespace Verif.Geo
open scoped BigOperators Topology
open Matrix Filter Asymptotics

variable {𝕜 : Type*} [RCLike 𝕜] {F : Type*} [NormedAddCommGroup F] [NormedSpace ℝ F]
  {κ ι m n p : Type*}

/-- `c t = x + t v + t² / 2 a + o(t²)`. -/
def Jet2 (c : ℝ → F) (x v a : F) : Prop :=
  (fun t : ℝ => c t - (x + t • v + (t ^ 2 / 2) • a)) =o[𝓝 0] fun t : ℝ => t ^ 2

/-- Entrywise second order expansion of a curve of matrices. -/
def MatJet2 (c : ℝ → Matrix m n 𝕜) (X V A : Matrix m n 𝕜) : Prop :=
  ∀ i j, Jet2 (fun t => c t i j) (X i j) (V i j) (A i j)

/-- Entrywise second order expansion of a curve of stacks of matrices. -/
def StackJet2 (c : ℝ → Stack κ m n 𝕜) (X V A : Stack κ m n 𝕜) : Prop :=
  ∀ k, MatJet2 (fun t => c t k) (X k) (V k) (A k)

theorem sq_isLittleO_id : (fun t : ℝ => t ^ 2) =o[𝓝 0] fun t : ℝ => t := by
  simpa using isLittleO_pow_id (𝕜 := ℝ) (n := 2) (by norm_num)

theorem pow_isLittleO_sq {k : ℕ} (hk : 2 < k) : (fun t : ℝ => t ^ k) =o[𝓝 0] fun t : ℝ => t ^ 2 :=
  isLittleO_pow_pow hk

namespace Jet2

theorem of_bound {c : ℝ → F} {x v a : F} {C : ℝ} {k : ℕ} (hk : 2 < k)
    (h : ∀ᶠ t : ℝ in 𝓝 0, ‖c t - (x + t • v + (t ^ 2 / 2) • a)‖ ≤ C * |t| ^ k) : Jet2 c x v a := by
  refine IsBigO.trans_isLittleO (IsBigO.of_bound C (h.mono fun t ht => ?_)) (pow_isLittleO_sq hk)
  rwa [norm_pow, Real.norm_eq_abs]

theorem congr {c d : ℝ → F} {x v a : F} (h : Jet2 c x v a) (e : ∀ᶠ t in 𝓝 0, d t = c t) :
    Jet2 d x v a :=
  IsLittleO.congr' h (e.mono fun t ht => by simp only [ht]) EventuallyEq.rfl

theorem congr_jet {c : ℝ → F} {x v a x' v' a' : F} (h : Jet2 c x v a) (hx : x = x') (hv : v = v')
    (ha : a = a') : Jet2 c x' v' a' := by subst hx hv ha; exact h

theorem const (x : F) : Jet2 (fun _ => x) x 0 0 := by
  simp only [Jet2, smul_zero, add_zero, sub_self]
  exact isLittleO_zero _ _

theorem line (x v : F) : Jet2 (fun t : ℝ => x + t • v) x v 0 := by
  simp only [Jet2, smul_zero, add_zero, sub_self]
  exact isLittleO_zero _ _

theorem quadratic (x v a : F) : Jet2 (fun t : ℝ => x + t • v + (t ^ 2 / 2) • a) x v a := by
  simp only [Jet2, sub_self]
  exact isLittleO_zero _ _

theorem add {c d : ℝ → F} {x v a y w b : F} (hc : Jet2 c x v a) (hd : Jet2 d y w b) :
    Jet2 (fun t => c t + d t) (x + y) (v + w) (a + b) := by
  refine (IsLittleO.add hc hd).congr_left fun t => ?_
  module

theorem sub {c d : ℝ → F} {x v a y w b : F} (hc : Jet2 c x v a) (hd : Jet2 d y w b) :
    Jet2 (fun t => c t - d t) (x - y) (v - w) (a - b) := by
  refine (IsLittleO.sub hc hd).congr_left fun t => ?_
  module

theorem sum {α : Type*} {s : Finset α} {c : α → ℝ → F} {x v a : α → F}
    (h : ∀ i ∈ s, Jet2 (c i) (x i) (v i) (a i)) :
    Jet2 (fun t => ∑ i ∈ s, c i t) (∑ i ∈ s, x i) (∑ i ∈ s, v i) (∑ i ∈ s, a i) := by
  classical
  induction s using Finset.induction_on with
  | empty => simpa using const (0 : F)
  | insert i s hi ih =>
    simp only [Finset.sum_insert hi]
    exact (h i (Finset.mem_insert_self i s)).add
      (ih fun j hj => h j (Finset.mem_insert_of_mem hj))

theorem map {E : Type*} [NormedAddCommGroup E] [NormedSpace ℝ E] {c : ℝ → F} {x v a : F}
    (h : Jet2 c x v a) (L : F →L[ℝ] E) : Jet2 (fun t => L (c t)) (L x) (L v) (L a) := by
  refine ((L.isBigO_comp _ _).trans_isLittleO h).congr_left fun t => ?_
  simp only [map_sub, map_add, map_smul]

theorem isBigO_sub {c : ℝ → F} {x v a : F} (h : Jet2 c x v a) :
    (fun t => c t - (x + t • v)) =O[𝓝 0] fun t : ℝ => t ^ 2 := by
  have h1 : (fun t : ℝ => (t ^ 2 / 2) • a) =O[𝓝 0] fun t : ℝ => t ^ 2 := by
    refine IsBigO.of_bound (‖a‖) (Eventually.of_forall fun t => ?_)
    rw [norm_smul, norm_div, Real.norm_two]
    have := norm_nonneg (t ^ 2)
    have := norm_nonneg a
    nlinarith [mul_nonneg (norm_nonneg (t ^ 2)) (norm_nonneg a)]
  refine (h.isBigO.add h1).congr_left fun t => ?_
  abel

theorem isBigO_id {c : ℝ → F} {x v a : F} (h : Jet2 c x v a) :
    (fun t => c t - x) =O[𝓝 0] fun t : ℝ => t := by
  have h1 : (fun t : ℝ => t • v) =O[𝓝 0] fun t : ℝ => t := by
    refine IsBigO.of_bound (‖v‖) (Eventually.of_forall fun t => ?_)
    rw [norm_smul, mul_comm]
  refine ((h.isBigO_sub.trans_isLittleO sq_isLittleO_id).isBigO.add h1).congr_left fun t => ?_
  abel

theorem mul {c d : ℝ → 𝕜} {x v a y w b : 𝕜} (hc : Jet2 c x v a) (hd : Jet2 d y w b) :
    Jet2 (fun t => c t * d t) (x * y) (v * y + x * w) (a * y + 2 * (v * w) + x * b) := by
  -- c d - jet = r_c d + (jet c) r_d + terms of order three and four
  have h1 : (fun t => (c t - (x + t • v + (t ^ 2 / 2) • a)) * d t) =o[𝓝 0] fun t : ℝ => t ^ 2 := by
    have hb : d =O[𝓝 0] fun _ : ℝ => (1 : ℝ) := by
      have := (hd.isBigO_id.trans_tendsto tendsto_id).const_add y
      have h2 : Tendsto d (𝓝 0) (𝓝 y) := by simpa using this
      exact h2.isBigO_one ℝ
    simpa using IsLittleO.mul_isBigO hc hb
  have h2 : (fun t : ℝ => (x + t • v + (t ^ 2 / 2) • a) * (d t - (y + t • w + (t ^ 2 / 2) • b)))
      =o[𝓝 0] fun t : ℝ => t ^ 2 := by
    have hb : (fun t : ℝ => x + t • v + (t ^ 2 / 2) • a) =O[𝓝 0] fun _ : ℝ => (1 : ℝ) := by
      have hcont : Continuous fun t : ℝ => x + t • v + (t ^ 2 / 2) • a := by fun_prop
      exact (hcont.tendsto 0).isBigO_one ℝ
    simpa using hb.mul_isLittleO hd
  have h3 : (fun t : ℝ => (t ^ 3) • ((1 / 2 : ℝ) • (a * w + v * b))) =o[𝓝 0] fun t : ℝ => t ^ 2 := by
    refine IsBigO.trans_isLittleO ?_ (pow_isLittleO_sq (k := 3) (by norm_num))
    refine IsBigO.of_bound (‖(1 / 2 : ℝ) • (a * w + v * b)‖) (Eventually.of_forall fun t => ?_)
    rw [norm_smul, mul_comm]
  have h4 : (fun t : ℝ => (t ^ 4) • ((1 / 4 : ℝ) • (a * b))) =o[𝓝 0] fun t : ℝ => t ^ 2 := by
    refine IsBigO.trans_isLittleO ?_ (pow_isLittleO_sq (k := 4) (by norm_num))
    refine IsBigO.of_bound (‖(1 / 4 : ℝ) • (a * b)‖) (Eventually.of_forall fun t => ?_)
    rw [norm_smul, mul_comm]
  refine (((h1.add h2).add h3).add h4).congr_left fun t => ?_
  simp only [RCLike.real_smul_eq_coe_mul]
  push_cast
  ring

theorem star {c : ℝ → 𝕜} {x v a : 𝕜} (hc : Jet2 c x v a) :
    Jet2 (fun t => Star.star (c t)) (Star.star x) (Star.star v) (Star.star a) :=
  hc.map (starL' ℝ : 𝕜 ≃L[ℝ] 𝕜).toContinuousLinearMap

theorem ofReal {c : ℝ → ℝ} {x v a : ℝ} (hc : Jet2 c x v a) :
    Jet2 (fun t => ((c t : ℝ) : 𝕜)) (x : 𝕜) (v : 𝕜) (a : 𝕜) :=
  hc.map (RCLike.ofRealCLM (K := 𝕜))

/-- A curve with a derivative near zero that is differentiable at zero. -/
theorem of_deriv {c w : ℝ → F} {a : F} (hc : ∀ᶠ t in 𝓝 0, HasDerivAt c (w t) t)
    (hw : HasDerivAt w a 0) : Jet2 c (c 0) (w 0) a := by
  rw [Jet2, isLittleO_iff]
  intro ε hε
  have h1 := (hasDerivAt_iff_isLittleO.mp hw).def hε
  obtain ⟨δ, hδ, hball⟩ := Metric.mem_nhds_iff.mp (hc.and h1)
  refine Metric.mem_nhds_iff.mpr ⟨δ, hδ, fun t ht => ?_⟩
  have htδ : |t| < δ := by simpa using ht
  have key := (convex_closedBall (0 : ℝ) |t|).norm_image_sub_le_of_norm_hasDerivWithin_le
    (f := fun s : ℝ => c s - (c 0 + s • w 0 + (s ^ 2 / 2) • a))
    (f' := fun s : ℝ => w s - (w 0 + s • a)) (C := ε * |t|) (x := 0) (y := t) ?_ ?_ ?_ ?_
  · change ‖c t - (c 0 + t • w 0 + (t ^ 2 / 2) • a) - (c 0 - (c 0 + (0 : ℝ) • w 0 +
      ((0 : ℝ) ^ 2 / 2) • a))‖ ≤ ε * |t| * ‖t - 0‖ at key
    have e : c 0 - (c 0 + (0 : ℝ) • w 0 + ((0 : ℝ) ^ 2 / 2) • a) = 0 := by
      simp
    rw [e, sub_zero, sub_zero, Real.norm_eq_abs, mul_assoc, ← sq] at key
    change ‖c t - (c 0 + t • w 0 + (t ^ 2 / 2) • a)‖ ≤ ε * ‖t ^ 2‖
    rwa [norm_pow, Real.norm_eq_abs]
  · intro s hs
    have hs' : |s| ≤ |t| := by simpa using hs
    have hsb := hball (show s ∈ Metric.ball (0 : ℝ) δ by
      simpa using lt_of_le_of_lt hs' htδ)
    have h2 : HasDerivAt (fun s : ℝ => c 0 + s • w 0 + (s ^ 2 / 2) • a) (w 0 + s • a) s := by
      have h3 := (((hasDerivAt_id s).smul_const (w 0)).const_add (c 0)).add
        (((hasDerivAt_pow 2 s).div_const 2).smul_const a)
      refine h3.congr_deriv ?_
      simp
    exact (hsb.1.sub h2).hasDerivWithinAt
  · intro s hs
    have hs' : |s| ≤ |t| := by simpa using hs
    have hsb := (hball (show s ∈ Metric.ball (0 : ℝ) δ by
      simpa using lt_of_le_of_lt hs' htδ)).2
    rw [sub_zero] at hsb
    refine le_trans (le_of_eq ?_) (hsb.trans ?_)
    · congr 1; abel
    · rw [Real.norm_eq_abs]; exact mul_le_mul_of_nonneg_left hs' hε.le
  · simp
  · simp

theorem velocity {c : ℝ → F} {x v a : F} (h : Jet2 c x v a) (h0 : c 0 = x) : HasDerivAt c v 0 := by
  rw [hasDerivAt_iff_isLittleO]
  refine (h.isBigO_sub.trans_isLittleO sq_isLittleO_id).congr (fun t => ?_) fun t => ?_
  · rw [h0, sub_zero]; abel
  · rw [sub_zero]

theorem start {c : ℝ → F} {x v a : F} (h : Jet2 c x v a) : c 0 = x := by
  have h1 := h.isBigO_id
  obtain ⟨C, hC⟩ := h1.bound
  have := hC.self_of_nhds
  simp only [norm_zero, mul_zero] at this
  exact sub_eq_zero.mp (norm_le_zero_iff.mp this)

theorem unique {c : ℝ → ℝ} {x v a b : ℝ} (h : Jet2 c x v a) (h' : Jet2 c x v b) : a = b := by
  have h1 := IsLittleO.sub h h'
  have h2 : (fun t : ℝ => t ^ 2 * ((b - a) / 2)) =o[𝓝 0] fun t : ℝ => t ^ 2 := by
    refine h1.congr_left fun t => ?_
    simp only [smul_eq_mul]
    ring
  by_contra hne
  have hb : (b - a) / 2 ≠ 0 := div_ne_zero (sub_ne_zero.mpr (Ne.symm hne)) two_ne_zero
  have h3 : (fun t : ℝ => t ^ 2) =o[𝓝 0] fun t : ℝ => t ^ 2 := by
    have := h2.const_mul_left ((b - a) / 2)⁻¹
    refine this.congr_left fun t => ?_
    field_simp
  have h4 := h3.mono (nhdsWithin_le_nhds (s := {0}ᶜ))
  rw [isLittleO_iff] at h4
  have h5 := (h4 (c := 1 / 2) (by norm_num)).and self_mem_nhdsWithin
  obtain ⟨t, ht, ht0⟩ := h5.exists
  have : 0 < ‖t ^ 2‖ := norm_pos_iff.mpr (pow_ne_zero 2 ht0)
  linarith

end Jet2

theorem jet2_pi [Fintype ι] {c : ℝ → ι → 𝕜} {x v a : ι → 𝕜} :
    Jet2 c x v a ↔ ∀ i, Jet2 (fun t => c t i) (x i) (v i) (a i) := by
  simp only [Jet2]
  rw [isLittleO_pi]
  rfl

namespace MatJet2

theorem of_deriv {c W : ℝ → Matrix m n 𝕜} {A : Matrix m n 𝕜} (hc : ∀ t, MatDeriv c (W t) t)
    (hw : MatDeriv W A 0) : MatJet2 c (c 0) (W 0) A := fun i j =>
  Jet2.of_deriv (Eventually.of_forall fun t => hc t i j) (hw i j)

theorem congr {c d : ℝ → Matrix m n 𝕜} {X V A : Matrix m n 𝕜} (h : MatJet2 c X V A)
    (e : ∀ t, d t = c t) : MatJet2 d X V A := fun i j =>
  (h i j).congr (Eventually.of_forall fun t => by rw [e])

theorem congr_jet {c : ℝ → Matrix m n 𝕜} {X V A X' V' A' : Matrix m n 𝕜} (h : MatJet2 c X V A)
    (hx : X = X') (hv : V = V') (ha : A = A') : MatJet2 c X' V' A' := by subst hx hv ha; exact h

theorem const (A : Matrix m n 𝕜) : MatJet2 (fun _ => A) A 0 0 := fun i j => Jet2.const (A i j)

theorem line (X V : Matrix m n 𝕜) : MatJet2 (fun t : ℝ => X + t • V) X V 0 := fun i j =>
  Jet2.line (X i j) (V i j)

theorem add {c d : ℝ → Matrix m n 𝕜} {X V A Y W B : Matrix m n 𝕜} (hc : MatJet2 c X V A)
    (hd : MatJet2 d Y W B) : MatJet2 (fun t => c t + d t) (X + Y) (V + W) (A + B) := fun i j =>
  (hc i j).add (hd i j)

theorem mul [Fintype n] {c : ℝ → Matrix m n 𝕜} {d : ℝ → Matrix n p 𝕜} {X V A : Matrix m n 𝕜}
    {Y W B : Matrix n p 𝕜} (hc : MatJet2 c X V A) (hd : MatJet2 d Y W B) :
    MatJet2 (fun t => c t * d t) (X * Y) (V * Y + X * W)
      (A * Y + (2 : ℝ) • (V * W) + X * B) := by
  intro i j
  have h := Jet2.sum (s := Finset.univ) fun k _ => (hc i k).mul (hd k j)
  refine (h.congr (Eventually.of_forall fun t => ?_)).congr_jet ?_ ?_ ?_
  · exact mul_apply
  · rw [mul_apply]
  · simp only [Matrix.add_apply, mul_apply, Finset.sum_add_distrib]
  · simp only [Matrix.add_apply, Matrix.smul_apply, mul_apply, Finset.sum_add_distrib,
      ← Finset.mul_sum, RCLike.real_smul_eq_coe_mul, RCLike.ofReal_ofNat]

end MatJet2

/-! ### Functions -/

section
variable {E : Type*} [NormedAddCommGroup E] [NormedSpace ℝ E]

/-- Second order Taylor expansion of a function differentiable near a point whose derivative is
differentiable at the point. -/
theorem taylor_two {f : E → ℝ} {f' : E → E →L[ℝ] ℝ} {f'' : E →L[ℝ] E →L[ℝ] ℝ} {x : E}
    (h1 : ∀ᶠ y in 𝓝 x, HasFDerivAt f (f' y) y) (h2 : HasFDerivAt f' f'' x) :
    (fun u => f (x + u) - (f x + f' x u + 1 / 2 * f'' u u)) =o[𝓝 0] fun u => ‖u‖ ^ 2 := by
  have hsymm : ∀ u v, f'' u v = f'' v u := second_derivative_symmetric_of_eventually h1 h2
  rw [isLittleO_iff]
  intro ε hε
  have h3 := ((hasFDerivAt_iff_isLittleO_nhds_zero.mp h2).def hε)
  have h1' : ∀ᶠ u in 𝓝 (0 : E), HasFDerivAt f (f' (x + u)) (x + u) := by
    have ht : Tendsto (fun u : E => x + u) (𝓝 0) (𝓝 x) := by
      have : Continuous fun u : E => x + u := by fun_prop
      simpa using this.tendsto 0
    exact ht.eventually h1
  obtain ⟨δ, hδ, hball⟩ := Metric.mem_nhds_iff.mp (h1'.and h3)
  refine Metric.mem_nhds_iff.mpr ⟨δ, hδ, fun u hu => ?_⟩
  have huδ : ‖u‖ < δ := by simpa using hu
  have key := (convex_closedBall (0 : E) ‖u‖).norm_image_sub_le_of_norm_hasFDerivWithin_le
    (𝕜 := ℝ) (f := fun s : E => f (x + s) - (f x + f' x s + 1 / 2 * f'' s s))
    (f' := fun s : E => f' (x + s) - (f' x + f'' s)) (C := ε * ‖u‖) (x := 0) (y := u) ?_ ?_ ?_ ?_
  · simp only [add_zero, map_zero, mul_zero, sub_self, sub_zero] at key
    change ‖f (x + u) - (f x + f' x u + 1 / 2 * f'' u u)‖ ≤ ε * ‖‖u‖ ^ 2‖
    rw [norm_pow, norm_norm, sq, ← mul_assoc]
    exact key
  · intro s hs
    have hs' : ‖s‖ ≤ ‖u‖ := by simpa using hs
    have hsb := (hball (show s ∈ Metric.ball (0 : E) δ by simpa using lt_of_le_of_lt hs' huδ)).1
    have e1 : HasFDerivAt (fun s : E => f (x + s)) (f' (x + s)) s := by
      have := HasFDerivAt.comp s (g := f) (f := fun s : E => x + s) hsb
        ((hasFDerivAt_id s).const_add x)
      exact this
    have e2 : HasFDerivAt (fun s : E => f'' s s) (f'' s + f''.flip s) s := by
      have h4 := (f''.hasFDerivAt (x := s)).clm_apply (hasFDerivAt_id s)
      refine h4.congr_fderiv ?_
      ext d
      simp
    have e3 : HasFDerivAt (fun s : E => f x + f' x s + 1 / 2 * f'' s s)
        (f' x + (1 / 2 : ℝ) • (f'' s + f''.flip s)) s :=
      (((f' x).hasFDerivAt (x := s)).const_add (f x)).add (e2.const_mul (1 / 2))
    refine ((e1.sub e3).congr_fderiv ?_).hasFDerivWithinAt
    ext d
    simp only [_root_.sub_apply, _root_.add_apply,
      _root_.smul_apply, ContinuousLinearMap.flip_apply, hsymm d s, smul_eq_mul]
    ring
  · intro s hs
    have hs' : ‖s‖ ≤ ‖u‖ := by simpa using hs
    have hsb := (hball (show s ∈ Metric.ball (0 : E) δ by simpa using lt_of_le_of_lt hs' huδ)).2
    refine le_trans (le_of_eq ?_) (hsb.trans (mul_le_mul_of_nonneg_left hs' hε.le))
    congr 1; abel
  · simp
  · simp

/-- The second order expansion of a function along a curve. -/
theorem jet2_comp {f : E → ℝ} {f' : E → E →L[ℝ] ℝ} {f'' : E →L[ℝ] E →L[ℝ] ℝ} {x v a : E}
    (h1 : ∀ᶠ y in 𝓝 x, HasFDerivAt f (f' y) y) (h2 : HasFDerivAt f' f'' x) {c : ℝ → E}
    (hc : Jet2 c x v a) : Jet2 (fun t => f (c t)) (f x) (f' x v) (f'' v v + f' x a) := by
  have hO := hc.isBigO_id
  have hlim : Tendsto (fun t => c t - x) (𝓝 0) (𝓝 0) := hO.trans_tendsto tendsto_id
  have t1 : (fun t => f (c t) - (f x + f' x (c t - x) + 1 / 2 * f'' (c t - x) (c t - x)))
      =o[𝓝 0] fun t : ℝ => t ^ 2 := by
    have := (taylor_two h1 h2).comp_tendsto hlim
    have hb : (fun t => ‖c t - x‖ ^ 2) =O[𝓝 0] fun t : ℝ => t ^ 2 := hO.norm_left.pow 2
    refine (this.trans_isBigO hb).congr_left fun t => ?_
    simp only [Function.comp_apply, add_sub_cancel]
  have t2 : (fun t => f' x (c t - (x + t • v + (t ^ 2 / 2) • a))) =o[𝓝 0] fun t : ℝ => t ^ 2 :=
    ((f' x).isBigO_comp _ _).trans_isLittleO hc
  obtain ⟨r, hr⟩ : ∃ r : ℝ → E, r = fun t => c t - (x + t • v) := ⟨_, rfl⟩
  have hrO : r =O[𝓝 0] fun t : ℝ => t ^ 2 := by rw [hr]; exact hc.isBigO_sub
  have cubic : (fun t : ℝ => t * t ^ 2) =o[𝓝 0] fun t : ℝ => t ^ 2 :=
    (pow_isLittleO_sq (k := 3) (by norm_num)).congr_left fun t => by ring
  have tv : (fun t : ℝ => t • v) =O[𝓝 0] fun t : ℝ => t := by
    refine IsBigO.of_bound (‖v‖) (Eventually.of_forall fun t => ?_)
    rw [norm_smul, mul_comm]
  have bil : ∀ {a b : ℝ → E} {α β : ℝ → ℝ}, a =O[𝓝 0] α → b =O[𝓝 0] β →
      (fun t => f'' (a t) (b t)) =O[𝓝 0] fun t => α t * β t := by
    intro a b α β ha hb
    have h5 : (fun t => f'' (a t) (b t)) =O[𝓝 0] fun t => ‖a t‖ * ‖b t‖ := by
      refine IsBigO.of_bound ‖f''‖ (Eventually.of_forall fun t => ?_)
      rw [norm_mul, norm_norm, norm_norm, ← mul_assoc]
      exact f''.le_opNorm₂ (a t) (b t)
    exact h5.trans (ha.norm_left.mul hb.norm_left)
  have t3 : (fun t => f'' (t • v) (r t)) =o[𝓝 0] fun t : ℝ => t ^ 2 :=
    (bil tv hrO).trans_isLittleO cubic
  have t4 : (fun t => f'' (r t) (t • v)) =o[𝓝 0] fun t : ℝ => t ^ 2 :=
    (bil hrO tv).trans_isLittleO (cubic.congr_left fun t => by ring)
  have t5 : (fun t => f'' (r t) (r t)) =o[𝓝 0] fun t : ℝ => t ^ 2 :=
    (bil hrO hrO).trans_isLittleO
      ((pow_isLittleO_sq (k := 4) (by norm_num)).congr_left fun t => by ring)
  have hsum := (t1.add t2).add (((t3.add t4).add t5).const_mul_left (1 / 2))
  refine hsum.congr_left fun t => ?_
  have e1 : c t - x = t • v + r t := by rw [hr]; simp only; abel
  have e2 : c t - (x + t • v + (t ^ 2 / 2) • a) = (c t - x) - t • v - (t ^ 2 / 2) • a := by abel
  rw [e2, e1]
  simp only [map_add, map_sub, map_smul, _root_.add_apply,
    _root_.smul_apply, smul_eq_mul]
  ring

end

/-- Directional derivative of a derivative. -/
theorem hasDerivAt_fderiv_line {E : Type*} [NormedAddCommGroup E] [NormedSpace ℝ E]
    {f' : E → E →L[ℝ] ℝ} {f'' : E →L[ℝ] E →L[ℝ] ℝ} {x : E} (h2 : HasFDerivAt f' f'' x) (v d : E) :
    HasDerivAt (fun t : ℝ => f' (x + t • v) d) (f'' v d) 0 := by
  have hl : HasDerivAt (fun t : ℝ => x + t • v) v 0 := by
    simpa using ((hasDerivAt_id (0 : ℝ)).smul_const v).const_add x
  have h2' : HasFDerivAt f' f'' (x + (0 : ℝ) • v) := by simpa using h2
  have h3 : HasDerivAt (fun t : ℝ => f' (x + t • v)) (f'' v) 0 := h2'.comp_hasDerivAt (0 : ℝ) hl
  exact (ContinuousLinearMap.apply ℝ ℝ d).hasFDerivAt.comp_hasDerivAt (0 : ℝ) h3

end Verif.Geo
