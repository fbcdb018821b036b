/-
C166: `pair_mean` is the intrinsic mean of two points, on every manifold that implements it.
-/
import Verif.Geo.Props.Metric

namespace Verif.Geo
open scoped BigOperators ComplexOrder
open Matrix

/-! ## Specification -/

section spec
variable {E : Type*}

/-- `m` lies on the manifold, half way between `a` and `b`, and no point of the manifold has a
smaller sum of squared distances to them. -/
structure IntrinsicMean (On : E → Prop) (D : E → E → ℝ → Prop) (a b m : E) : Prop where
  on : On m
  half : ∀ d, D a b d → D a m (d / 2) ∧ D m b (d / 2)
  least : ∀ x, On x → ∀ d₁ d₂ e₁ e₂, D a m d₁ → D m b d₂ → D a x e₁ → D x b e₂ →
    d₁ ^ 2 + d₂ ^ 2 ≤ e₁ ^ 2 + e₂ ^ 2

/-- Besides, every other point of the manifold has a larger sum of squared distances, so that no
other is half way. -/
structure UniqueMean (On : E → Prop) (same : E → E → Prop) (D : E → E → ℝ → Prop) (a b m : E) :
    Prop extends IntrinsicMean On D a b m where
  unique : ∀ x, On x → ∀ d₁ d₂ e₁ e₂, D a m d₁ → D m b d₂ → D a x e₁ → D x b e₂ →
    e₁ ^ 2 + e₂ ^ 2 ≤ d₁ ^ 2 + d₂ ^ 2 → same x m

end spec

/-! ## Midpoints -/

section general
variable {E : Type*} {On : E → Prop} {same : E → E → Prop} {D : E → E → ℝ → Prop} {a b m : E}

/-- **C166**: a midpoint is an intrinsic mean, and the only one if it is the only midpoint. -/
theorem C166_midpoint (hM : IsMetricOn On same D) (ha : On a) (hb : On b) (hm : On m)
    (h : ∀ d, D a b d → D a m (d / 2) ∧ D m b (d / 2)) :
    IntrinsicMean On D a b m ∧
      ((∀ x, On x → ∀ d, D a b d → D a x (d / 2) → D x b (d / 2) → same x m) →
        UniqueMean On same D a b m) := by
  obtain ⟨d, hd, -⟩ := hM.total a b ha hb
  obtain ⟨h1, h2⟩ := h d hd
  have hd0 := hM.nonneg _ _ _ ha hb hd
  have e1 : ∀ d₁, D a m d₁ → d₁ = d / 2 := fun d₁ hd₁ => (hM.total a m ha hm).unique hd₁ h1
  have e2 : ∀ d₂, D m b d₂ → d₂ = d / 2 := fun d₂ hd₂ => (hM.total m b hm hb).unique hd₂ h2
  have hi : IntrinsicMean On D a b m := by
    refine ⟨hm, h, fun x hx d₁ d₂ e₁ e₂ hd₁ hd₂ he₁ he₂ => ?_⟩
    have ht := hM.triangle a x b e₁ e₂ d ha hx hb he₁ he₂ hd
    rw [e1 d₁ hd₁, e2 d₂ hd₂]
    nlinarith [sq_nonneg (e₁ - e₂)]
  refine ⟨hi, fun hu => { hi with unique := fun x hx d₁ d₂ e₁ e₂ hd₁ hd₂ he₁ he₂ hle => ?_ }⟩
  have ht := hM.triangle a x b e₁ e₂ d ha hx hb he₁ he₂ hd
  rw [e1 d₁ hd₁, e2 d₂ hd₂] at hle
  have h3 : (e₁ - e₂) ^ 2 ≤ 0 := by nlinarith
  have h4 : e₁ = e₂ := by nlinarith
  have h5 : e₁ ≤ d / 2 := by
    subst h4
    exact abs_le_of_sq_le_sq' (by nlinarith) (by linarith) |>.2
  have h6 : e₁ = d / 2 := by linarith
  exact hu x hx d hd (h6 ▸ he₁) ((h4.symm.trans h6) ▸ he₂)

/-- If the squares of the distances of two points to a third add up like this, then the parts of the
third are half way. -/
private theorem parts {κ : Type*} [Fintype κ] {t u w : κ → ℝ} (ht : ∀ k, 0 ≤ t k)
    (h : ∀ k, t k ≤ u k + w k) (hu : 4 * ∑ k, u k ^ 2 = ∑ k, t k ^ 2)
    (hw : 4 * ∑ k, w k ^ 2 = ∑ k, t k ^ 2) (k : κ) : u k = t k / 2 ∧ w k = t k / 2 := by
  have h1 : ∑ k, ((u k - w k) ^ 2 + ((u k + w k) ^ 2 - t k ^ 2)) = 0 := by
    have : ∀ k, (u k - w k) ^ 2 + ((u k + w k) ^ 2 - t k ^ 2) = 2 * u k ^ 2 + 2 * w k ^ 2 - t k ^ 2 :=
      fun k => by ring
    simp only [this, Finset.sum_sub_distrib, Finset.sum_add_distrib, ← Finset.mul_sum]
    linarith
  have h2 : ∀ k, 0 ≤ (u k + w k) ^ 2 - t k ^ 2 := fun k => by nlinarith [h k, ht k]
  have h3 := (Finset.sum_eq_zero_iff_of_nonneg fun k _ => add_nonneg (sq_nonneg _) (h2 k)).1 h1 k
    (Finset.mem_univ k)
  have h4 : (u k - w k) ^ 2 = 0 := by nlinarith [h2 k, sq_nonneg (u k - w k)]
  have h5 : u k = w k := by nlinarith
  have h6 : (u k + w k) ^ 2 = t k ^ 2 := by nlinarith [h2 k, sq_nonneg (u k - w k)]
  have h7 : u k + w k = t k := by
    have := h k
    have := ht k
    nlinarith
  exact ⟨by linarith, by linarith⟩

end general

/-! ## Euclidean spaces -/

/-- **C166**, Euclidean spaces and linear spaces of matrices in them. -/
theorem C166_euclidean {ι : Type*} [Fintype ι] {𝕜 : Type*} [RCLike 𝕜] {P : (ι → 𝕜) → Prop}
    (hP : ∀ x y, P x → P y → P (eucPairMean x y)) {a b : ι → 𝕜} (ha : P a) (hb : P b) :
    UniqueMean P Eq (fun x y d => d = eucDist x y) a b (eucPairMean a b) ∧
      eucPairMean b a = eucPairMean a b ∧ eucPairMean a a = a := by
  have hm := C53_pair_mean a b
  have hs : ∀ x y : ι → 𝕜, eucDist x y ^ 2 = ∑ i, ‖x i - y i‖ ^ 2 := fun x y =>
    Real.sq_sqrt (Finset.sum_nonneg fun _ _ => sq_nonneg _)
  refine ⟨(C166_midpoint (C119_euclidean P) ha hb (hP _ _ ha hb) ?_).2 ?_, ?_, ?_⟩
  · rintro d rfl
    exact ⟨hm.1.symm, by rw [← hm.2]; exact (C53_dist _ _ b).2.1⟩
  · rintro x hx d rfl h1 h2
    have e1 := hs a x
    have e2 := hs x b
    rw [← h1, div_pow, hs] at e1
    rw [← h2, div_pow, hs] at e2
    funext i
    obtain ⟨h3, h4⟩ := parts (fun i => norm_nonneg (a i - b i))
      (fun i => norm_sub_le_norm_sub_add_norm_sub (a i) (x i) (b i))
      (u := fun i => ‖a i - x i‖) (w := fun i => ‖x i - b i‖) (by linarith) (by linarith) i
    have h5 := parallelogram_law_with_norm 𝕜 (a i - x i) (x i - b i)
    rw [sub_add_sub_cancel] at h5
    rw [h3, h4] at h5
    have h6 : a i - x i - (x i - b i) = 0 := by
      rw [← norm_eq_zero]
      nlinarith [norm_nonneg (a i - x i - (x i - b i))]
    have h7 : a i + b i = (2 : ℝ) • x i := by
      rw [two_smul]
      linear_combination h6
    change x i = (1 / 2 : ℝ) • (a i + b i)
    rw [h7, smul_smul]
    norm_num
  · rw [eucPairMean, eucPairMean, add_comm]
  · rw [eucPairMean, ← two_smul ℝ a, smul_smul]
    norm_num

/-! ## Spheres -/

section sphere
variable {ι : Type*} [Fintype ι] {a b x : ι → ℝ}

private theorem sphere_unique (ha : OnSphere a) (hb : OnSphere b) (hne : b ≠ -a) (hx : OnSphere x)
    (h1 : sphereDist a x = sphereDist a b / 2) (h2 : sphereDist x b = sphereDist a b / 2) :
    x = spherePairMean a b := by
  obtain ⟨hm, e1, e2⟩ := C61_pair_mean a b ha hb hne
  have hc : ∀ {x y : ι → ℝ}, OnSphere x → OnSphere y → tensordot x y = Real.cos (sphereDist x y) :=
    fun hx hy => by
      rw [sphereDist_eq hx hy, Real.cos_arccos (dot_bounds hx hy).1 (dot_bounds hx hy).2]
  have hne' : a + b ≠ 0 := fun h => hne (eq_neg_of_add_eq_zero_right h)
  have hn : npNorm (a + b) ≠ 0 := fun h => hne' ((npNorm_eq_zero _).mp h)
  have hab : a + b = npNorm (a + b) • spherePairMean a b := by
    rw [spherePairMean, sphereNormalize, smul_inv_smul₀ hn]
  have h3 : tensordot (a + b) x = tensordot (a + b) (spherePairMean a b) := by
    rw [tensordot_inner.add_left, tensordot_inner.add_left, hc ha hx, tensordot_inner.symm b x,
      hc hx hb, hc ha hm, hc hb hm, h1, h2, e1, e2]
  rw [hab, tensordot_inner.smul_left, tensordot_inner.smul_left, hm.dot, mul_right_inj' hn] at h3
  refine ((C58_metric _ _ x hm hx hx).2.2.2.1.mp ?_).symm
  rw [sphereDist_eq hm hx, h3, Real.arccos_one]

private theorem sphere_self (ha : OnSphere a) : a = spherePairMean a a := by
  have h0 : sphereDist a a = 0 := (C58_metric a a a ha ha ha).2.2.2.1.mpr rfl
  refine sphere_unique ha ha (fun h => ?_) ha (by rw [h0, zero_div]) (by rw [h0, zero_div])
  have h1 : a = 0 := by
    funext i
    have := congrFun h i
    simp only [Pi.neg_apply] at this
    simp only [Pi.zero_apply]
    linarith
  have := ha.dot
  rw [h1, tensordot_inner.zero_left] at this
  exact zero_ne_one this

/-- **C166**, spheres and their intersections with subspaces: points that are not antipodal. -/
theorem C166_sphere {S : (ι → ℝ) → Prop} (hS : ∀ x y, S x → S y → S (spherePairMean x y))
    (ha : OnSubspaceSphere S a) (hb : OnSubspaceSphere S b) (hne : b ≠ -a) :
    UniqueMean (OnSubspaceSphere S) Eq (fun x y d => d = sphereDist x y) a b (spherePairMean a b) ∧
      spherePairMean b a = spherePairMean a b ∧ spherePairMean a a = a := by
  obtain ⟨hm, e1, e2⟩ := C61_pair_mean a b ha.2 hb.2 hne
  refine ⟨(C166_midpoint (C119_sphere_subspace S) ha hb ⟨hS _ _ ha.1 hb.1, hm⟩ ?_).2 ?_, ?_, ?_⟩
  · rintro d rfl
    exact ⟨e1.symm, by rw [← e2]; exact (C58_metric _ _ b hb.2 hm hb.2).1⟩
  · rintro x hx d rfl h1 h2
    exact sphere_unique ha.2 hb.2 hne hx.2 h1.symm h2.symm
  · rw [spherePairMean, spherePairMean, add_comm]
  · exact (sphere_self ha.2).symm

end sphere

/-! ## Oblique manifolds -/

/-- **C166**, oblique manifolds: matrices without antipodal columns. -/
theorem C166_oblique {m n : Type*} [Fintype m] [Fintype n] {A B : Matrix m n ℝ} (hA : OnOblique A)
    (hB : OnOblique B) (hne : ∀ j, colOf B j ≠ -colOf A j) :
    UniqueMean OnOblique Eq (fun X Y d => d = oblDist X Y) A B (oblPairMean A B) ∧
      oblPairMean B A = oblPairMean A B ∧ oblPairMean A A = A := by
  have ext_col : ∀ {A B : Matrix m n ℝ}, (∀ j, colOf A j = colOf B j) → A = B := fun h => by
    ext i j
    exact congrFun (h j) i
  have hcol : ∀ A B : Matrix m n ℝ, ∀ j, colOf (oblPairMean A B) j =
      spherePairMean (colOf A j) (colOf B j) := fun A B j => (C63_columns A B A 0 0 j).2.2.2.1
  have hmean := fun j => C61_pair_mean _ _ (hA j) (hB j) (hne j)
  have hM : OnOblique (oblPairMean A B) := fun j => by rw [hcol]; exact (hmean j).1
  have e : ∀ A B : Matrix m n ℝ, OnOblique A → OnOblique B →
      oblDist A B ^ 2 = ∑ j, sphereDist (colOf A j) (colOf B j) ^ 2 :=
    fun A B hA hB => (C63_distance A B 0 hA hB).1
  have hmet := C119_oblique (m := m) (n := n)
  have hn : ∀ A B : Matrix m n ℝ, 0 ≤ oblDist A B := fun A B => npNorm_nonneg _
  have hs := fun j => C58_metric (colOf A j) (colOf B j) (colOf B j) (hA j) (hB j) (hB j)
  refine ⟨(C166_midpoint hmet hA hB hM ?_).2 ?_, ?_, ?_⟩
  · rintro d rfl
    constructor
    · refine (sq_eq_sq₀ (by linarith [hn A B]) (hn _ _)).1 ?_
      rw [div_pow, e A B hA hB, e _ _ hA hM, Finset.sum_div]
      refine Finset.sum_congr rfl fun j _ => ?_
      rw [hcol, (hmean j).2.1, div_pow]
    · refine (sq_eq_sq₀ (by linarith [hn A B]) (hn _ _)).1 ?_
      rw [div_pow, e A B hA hB, e _ _ hM hB, Finset.sum_div]
      refine Finset.sum_congr rfl fun j _ => ?_
      rw [hcol, (C58_metric _ _ (colOf B j) (hmean j).1 (hB j) (hB j)).1, (hmean j).2.2, div_pow]
  · rintro X hX d rfl h1 h2
    have e1 := e A X hA hX
    have e2 := e X B hX hB
    rw [← h1, div_pow, e A B hA hB] at e1
    rw [← h2, div_pow, e A B hA hB] at e2
    refine ext_col fun j => ?_
    obtain ⟨h3, h4⟩ := parts (fun j => (hs j).2.1)
      (fun j => (C58_metric _ _ (colOf B j) (hA j) (hX j) (hB j)).2.2.2.2)
      (by linarith) (by linarith) j
    rw [hcol]
    exact sphere_unique (hA j) (hB j) (hne j) (hX j) h3 h4
  · rw [oblPairMean, oblPairMean, add_comm]
  · exact ext_col fun j => by rw [hcol]; exact (sphere_self (hA j)).symm

/-! ## Complex circles -/

section circle

private def plane (z : ℂ) : Fin 2 → ℝ := ![z.re, z.im]

private theorem plane_on {z : ℂ} (h : ‖z‖ = 1) : OnSphere (plane z) := by
  rw [norm_one_iff] at h
  simpa [OnSphere, plane, Fin.sum_univ_two] using h

private theorem plane_dist {a b : ℂ} (ha : ‖a‖ = 1) (hb : ‖b‖ = 1) :
    sphereDist (plane a) (plane b) = Real.arccos (star a * b).re := by
  rw [sphereDist_eq (plane_on ha) (plane_on hb), (circle_dot ha hb).1]
  simp [tensordot, plane, Fin.sum_univ_two]

private theorem plane_inj {a b : ℂ} (h : plane a = plane b) : a = b :=
  Complex.ext (congrFun h 0) (congrFun h 1)

private theorem plane_mean (a b : ℂ) :
    plane ((a + b) / (‖a + b‖ : ℝ)) = spherePairMean (plane a) (plane b) := by
  have h : npNorm (plane a + plane b) = ‖a + b‖ := by
    rw [npNorm, Fin.sum_univ_two, Complex.norm_def, Complex.normSq_apply]
    simp [plane, sq]
  rw [spherePairMean, sphereNormalize, h]
  funext i
  fin_cases i
  · change ((a + b) / (‖a + b‖ : ℝ)).re = ‖a + b‖⁻¹ * (a.re + b.re)
    rw [Complex.div_ofReal_re, Complex.add_re, div_eq_inv_mul]
  · change ((a + b) / (‖a + b‖ : ℝ)).im = ‖a + b‖⁻¹ * (a.im + b.im)
    rw [Complex.div_ofReal_im, Complex.add_im, div_eq_inv_mul]

/-- **C166**, complex circles: points without antipodal entries. -/
theorem C166_complex_circle {ι : Type*} [Fintype ι] {a b : ι → ℂ} (ha : OnCircles a)
    (hb : OnCircles b) (hne : ∀ i, b i ≠ -a i) :
    UniqueMean OnCircles Eq (fun x y d => d = ccDist x y) a b (ccPairMean a b) ∧
      ccPairMean b a = ccPairMean a b ∧ ccPairMean a a = a := by
  have hcol : ∀ (a b : ι → ℂ) i, plane (ccPairMean a b i) =
      spherePairMean (plane (a i)) (plane (b i)) := fun a b i => plane_mean (a i) (b i)
  have hne' : ∀ i, plane (b i) ≠ -plane (a i) := fun i h => hne i
    (Complex.ext (by simpa [plane] using congrFun h 0) (by simpa [plane] using congrFun h 1))
  have hmean := fun i => C61_pair_mean _ _ (plane_on (ha i)) (plane_on (hb i)) (hne' i)
  have hM : OnCircles (ccPairMean a b) := (C107_pair_mean a b ha hb hne).1
  have e : ∀ a b : ι → ℂ, OnCircles a → OnCircles b →
      ccDist a b ^ 2 = ∑ j, sphereDist (plane (a j)) (plane (b j)) ^ 2 := fun a b ha hb => by
    rw [ccDist, npNorm_sq_real, tensordot]
    exact Finset.sum_congr rfl fun j _ => by rw [plane_dist (ha j) (hb j), sq]
  have hn : ∀ a b : ι → ℂ, 0 ≤ ccDist a b := fun a b => npNorm_nonneg _
  have hs := fun j => C58_metric _ _ _ (plane_on (ha j)) (plane_on (hb j)) (plane_on (hb j))
  refine ⟨(C166_midpoint C119_complex_circle ha hb hM ?_).2 ?_, ?_, ?_⟩
  · rintro d rfl
    constructor
    · refine (sq_eq_sq₀ (by linarith [hn a b]) (hn _ _)).1 ?_
      rw [div_pow, e a b ha hb, e _ _ ha hM, Finset.sum_div]
      refine Finset.sum_congr rfl fun j _ => ?_
      rw [hcol, (hmean j).2.1, div_pow]
    · refine (sq_eq_sq₀ (by linarith [hn a b]) (hn _ _)).1 ?_
      rw [div_pow, e a b ha hb, e _ _ hM hb, Finset.sum_div]
      refine Finset.sum_congr rfl fun j _ => ?_
      rw [hcol, (C58_metric _ _ _ (hmean j).1 (plane_on (hb j)) (plane_on (hb j))).1, (hmean j).2.2,
        div_pow]
  · rintro x hx d rfl h1 h2
    have e1 := e a x ha hx
    have e2 := e x b hx hb
    rw [← h1, div_pow, e a b ha hb] at e1
    rw [← h2, div_pow, e a b ha hb] at e2
    funext j
    obtain ⟨h3, h4⟩ := parts (fun j => (hs j).2.1)
      (fun j => (C58_metric _ _ _ (plane_on (ha j)) (plane_on (hx j)) (plane_on (hb j))).2.2.2.2)
      (by linarith) (by linarith) j
    refine plane_inj ?_
    rw [hcol]
    exact sphere_unique (plane_on (ha j)) (plane_on (hb j)) (hne' j) (plane_on (hx j)) h3 h4
  · rw [ccPairMean, ccPairMean, add_comm]
  · funext j
    refine plane_inj ?_
    rw [hcol]
    exact (sphere_self (plane_on (ha j))).symm

end circle

/-! ## Poincaré balls -/

section ball
variable {ι : Type*} [Fintype ι] {a b x y : ι → ℝ}

/-- A point half way between the centre and `b` is a multiple of `b` given by the distance. -/
private theorem ball_centre {d : ℝ} (hb : InBall b) (hx : InBall x)
    (h0 : pbDist1 0 b = d) (h1 : pbDist1 0 x = d / 2) (h2 : pbDist1 x b = d / 2) :
    x = (Real.cosh (d / 2) / (Real.cosh (d / 2) + 1)) • b := by
  have hz : InBall (0 : ι → ℝ) := by simp [InBall]
  have e0 := cosh_dist1 hz hb
  have e1 := cosh_dist1 hz hx
  have e2 := cosh_dist1 hx hb
  rw [h0] at e0
  rw [h1] at e1
  rw [h2] at e2
  have e3 : Real.cosh d = 2 * Real.cosh (d / 2) ^ 2 - 1 := by
    have := Real.cosh_two_mul (d / 2)
    rw [mul_div_cancel₀ _ two_ne_zero, Real.sinh_sq] at this
    linarith
  have hB := sub_pos.mpr hb.dot
  have hX := sub_pos.mpr hx.dot
  have hxx := tensordot_inner.nonneg x
  have hxb : tensordot (x - b) (x - b) = tensordot x x - 2 * tensordot x b + tensordot b b := by
    rw [tensordot_inner.sub_left, tensordot_inner.sub_right, tensordot_inner.sub_right,
      tensordot_inner.symm b x]
    ring
  rw [zero_sub, tensordot_neg_neg, tensordot_inner.zero_left, sub_zero, one_mul] at e0 e1
  rw [hxb] at e2
  set r := tensordot x x
  set R := tensordot b b
  set t := tensordot x b
  set c := Real.cosh (d / 2)
  rw [e3] at e0
  have f1 : c * (1 - r) = 1 + r := by
    rw [e1]
    field_simp
    ring
  have f2 : c * ((1 - r) * (1 - R)) = (1 - r) * (1 - R) + 2 * (r - 2 * t + R) := by
    rw [e2]
    field_simp
  have f0 : (2 * c ^ 2 - 1) * (1 - R) = 1 + R := by
    rw [e0]
    field_simp
    ring
  have hc : 0 < c := Real.cosh_pos _
  have f3 : c / (c + 1) = (1 + r) / 2 := by
    rw [div_eq_div_iff (by linarith) two_ne_zero]
    linear_combination f1
  have f4 : 2 * t = R * (1 + r) := by linear_combination (1/2) * f2 - (1/2) * (1 - R) * f1
  have f5 : R * (1 + r) ^ 2 = 4 * r := by
    have h3 : (2 * (c * (1 - r)) ^ 2 - (1 - r) ^ 2) * (1 - R) = (1 + R) * (1 - r) ^ 2 := by
      linear_combination (1 - r) ^ 2 * f0
    rw [f1] at h3
    linear_combination (-1/2) * h3
  rw [f3]
  have h6 : tensordot (x - ((1 + r) / 2) • b) (x - ((1 + r) / 2) • b) = 0 := by
    rw [tensordot_inner.sub_left, tensordot_inner.sub_right, tensordot_inner.sub_right,
      tensordot_inner.smul_left, tensordot_inner.smul_left, tensordot_inner.smul_right,
      tensordot_inner.smul_right, tensordot_inner.symm b x]
    change r - (1 + r) / 2 * t - ((1 + r) / 2 * t - (1 + r) / 2 * ((1 + r) / 2 * R)) = 0
    linear_combination (-(1 + r) / 2) * f4 + (-1/4) * f5
  exact sub_eq_zero.1 (tensordot_inner.definite _ h6)

private theorem ball_unique (ha : InBall a) (hb : InBall b) (hx : InBall x) (hy : InBall y)
    (h1 : pbDist1 a x = pbDist1 a b / 2) (h2 : pbDist1 x b = pbDist1 a b / 2)
    (h3 : pbDist1 a y = pbDist1 a b / 2) (h4 : pbDist1 y b = pbDist1 a b / 2) : x = y := by
  have ha' : InBall (-a) := by
    simpa [InBall] using ha
  have h0 : pbMobius (-a) a = 0 := (C87_gyrogroup ha ha).2.2.1
  have ht : ∀ {u v : ι → ℝ}, InBall u → InBall v →
      pbDist1 (pbMobius (-a) u) (pbMobius (-a) v) = pbDist1 u v := fun hu hv =>
    dist1_translate ha' hu hv
  have hback : ∀ {u : ι → ℝ}, InBall u → pbMobius a (pbMobius (-a) u) = u := fun hu => by
    have := (C87_gyrogroup ha' hu).2.2.2
    rwa [neg_neg] at this
  have key : ∀ {u : ι → ℝ}, InBall u → pbDist1 a u = pbDist1 a b / 2 →
      pbDist1 u b = pbDist1 a b / 2 → pbMobius (-a) u = (Real.cosh (pbDist1 a b / 2) /
        (Real.cosh (pbDist1 a b / 2) + 1)) • pbMobius (-a) b := fun hu h1 h2 =>
    ball_centre (C87_mobius ha' hb).2 (C87_mobius ha' hu).2 (by rw [← h0, ht ha hb])
      (by rw [← h0, ht ha hu, h1]) (by rw [ht hu hb, h2])
  rw [← hback hx, ← hback hy, key hx h1 h2, key hy h3 h4]

/-- **C166**, Poincaré balls: points that differ in every ball. -/
theorem C166_poincare {κ : Type*} [Fintype κ] {A B : κ → ι → ℝ} (hA : InBalls A) (hB : InBalls B)
    (hne : ∀ k, A k ≠ B k) :
    ∃ M : κ → ι → ℝ, (∀ k, pbPairMean A B k = some (M k)) ∧ (∀ k, pbPairMean B A k = some (M k)) ∧
      UniqueMean InBalls Eq (fun X Y d => d = pbDist X Y) A B M := by
  obtain ⟨M, hM, hMb, h1, h2⟩ := C88_pair_mean A B hA hB hne
  obtain ⟨M', hM', hMb', h1', h2'⟩ := C88_pair_mean B A hB hA fun k => (hne k).symm
  have e : ∀ X Y : κ → ι → ℝ, pbDist X Y ^ 2 = ∑ k, pbDist1 (X k) (Y k) ^ 2 := fun X Y => by
    rw [pbDist, npNorm_sq_real, tensordot]
    exact Finset.sum_congr rfl fun j _ => by rw [sq]
  have hsym : ∀ X Y : κ → ι → ℝ, pbDist X Y = pbDist Y X := fun X Y => by
    rw [pbDist, pbDist]
    exact congrArg npNorm (funext fun k => dist1_symm _ _)
  have hp : ∀ X, InBalls X → pbDist A X = pbDist A B / 2 → pbDist X B = pbDist A B / 2 → ∀ k,
      pbDist1 (A k) (X k) = pbDist1 (A k) (B k) / 2 ∧
        pbDist1 (X k) (B k) = pbDist1 (A k) (B k) / 2 := fun X hX h1 h2 k => by
    have e1 := e A X
    have e2 := e X B
    rw [h1, div_pow, e] at e1
    rw [h2, div_pow, e] at e2
    exact parts (fun k => dist1_nonneg (hA k) (hB k))
      (fun k => dist1_triangle (hA k) (hX k) (hB k)) (by linarith) (by linarith) k
  have hu : ∀ X, InBalls X → pbDist A X = pbDist A B / 2 → pbDist X B = pbDist A B / 2 → X = M :=
    fun X hX e1 e2 => funext fun k =>
      ball_unique (hA k) (hB k) (hX k) (hMb k) (hp X hX e1 e2 k).1 (hp X hX e1 e2 k).2
        (hp M hMb h1 h2 k).1 (hp M hMb h1 h2 k).2
  have hMM : M' = M := hu M' hMb' (by rw [hsym, h2', hsym]) (by rw [hsym, h1', hsym])
  refine ⟨M, hM, hMM ▸ hM', (C166_midpoint C119_poincare hA hB hMb ?_).2 ?_⟩
  · rintro d rfl
    exact ⟨h1.symm, h2.symm⟩
  · rintro X hX d rfl e1 e2
    exact hu X hX e1.symm e2.symm

end ball

/-! ## Unitary and special orthogonal groups -/

section group
variable {κ n : Type*} [Fintype κ] [Fintype n] [DecidableEq n]

/-- **C166**, unitary groups: all pairs of points.  Exchanging the points does not change the mean
unless `-1` is an eigenvalue of a quotient of the points, which then lie at the ends of several
shortest geodesics. -/
theorem C166_unitary {A B M : Stack κ n n ℂ} (hA : OnUnitary A) (hB : OnUnitary B)
    (hM : IsGPairMean A B M) :
    IntrinsicMean OnUnitary IsGDist A B M ∧ IsGPairMean A A A ∧
      ((∀ k (x : n → ℂ), ((A k)ᴴ * B k) *ᵥ x = -x → x = 0) → IsGPairMean B A M) := by
  refine ⟨?_, ?_, fun hne => ?_⟩
  · obtain ⟨d, hd, -⟩ := (C97_dist hA hB).1
    refine (C166_midpoint C119_unitary hA hB ((C97_pair_mean hA hB).2 M d hM hd).1 ?_).1
    exact fun d hd => ((C97_pair_mean hA hB).2 M d hM hd).2
  · obtain ⟨V, hV, -⟩ := C97_total hA hA
    have h0 : V = 0 := by
      refine (C97_total hA hA).unique hV ?_
      have h1 : gExp A (0 : Stack κ n n ℂ) = A := funext fun k => by
        change A k * NormedSpace.exp (0 : Matrix n n ℂ) = A k
        rw [NormedSpace.exp_zero, Matrix.mul_one]
      have h2 := (C97_log_exp hA (V := 0) fun k => by simp).2 fun k μ x hx he => by
        have h3 : μ • x = 0 := by
          rw [← he]
          exact Matrix.zero_mulVec _
        rw [(smul_eq_zero.1 h3).resolve_right hx, Complex.zero_im]
        exact ⟨by linarith [Real.pi_pos], Real.pi_pos.le⟩
      rwa [h1] at h2
    subst h0
    refine ⟨0, hV, funext fun k => ?_⟩
    change A k = A k * NormedSpace.exp ((1 / 2 : ℝ) • (0 : Matrix n n ℂ))
    rw [smul_zero, NormedSpace.exp_zero, Matrix.mul_one]
  · obtain ⟨V, hV, rfl⟩ := hM
    obtain ⟨hlie, hBV⟩ := C97_log hA hB hV
    have hlog := (isGLog_iff hA hB).1 hV
    have hlie' : InLie (-V) := fun k => by
      change (-V k)ᴴ = - -V k
      rw [conjTranspose_neg, hlie k]
    have hcancel : ∀ k, NormedSpace.exp (V k) * NormedSpace.exp (-V k) = 1 := fun k => by
      rw [← exp_add_of_commute _ _ (Commute.neg_right (Commute.refl (V k))), add_neg_cancel,
        NormedSpace.exp_zero]
    have hAV : gExp B (-V) = A := funext fun k => by
      have := congrFun hBV k
      change A k * NormedSpace.exp (V k) = B k at this
      change B k * NormedSpace.exp (-V k) = A k
      rw [← this, Matrix.mul_assoc, hcancel, Matrix.mul_one]
    have hlogB : IsGLog B A (-V) := by
      have := (C97_log_exp hB hlie').2 fun k μ x hx he => ?_
      · rwa [hAV] at this
      · change (-V k) *ᵥ x = μ • x at he
        have h1 : V k *ᵥ x = (-μ) • x := by
          rw [neg_smul, ← he, Matrix.neg_mulVec, neg_neg]
        have h2 := (hlog k).strip _ _ hx h1
        rw [Complex.neg_im] at h2
        refine ⟨lt_of_le_of_ne (by linarith) fun h3 => ?_, by linarith⟩
        have h4 := exp_mulVec_eigen h1
        rw [(hlog k).exp] at h4
        refine hx (hne k x ?_)
        obtain ⟨w, v, hv, hd⟩ := exists_skew_diag (hlie k)
        have h5 : ∃ i, -μ = w i * Complex.I := by
          rw [hd] at h1
          obtain ⟨i, hi⟩ := unitary_diag_eigen hv _ hx h1
          exact ⟨i, by simpa using hi⟩
        obtain ⟨i, hi⟩ := h5
        have h6 : w i = Real.pi := by
          have := congrArg Complex.im hi
          simp at this
          linarith
        rw [h4, hi, h6, Complex.exp_pi_mul_I, neg_one_smul]
    refine ⟨-V, hlogB, funext fun k => ?_⟩
    have := congrFun hBV k
    change A k * NormedSpace.exp (V k) = B k at this
    change A k * NormedSpace.exp ((1 / 2 : ℝ) • V k) = B k * NormedSpace.exp ((1 / 2 : ℝ) • -V k)
    have e : NormedSpace.exp ((1 / 2 : ℝ) • V k) =
        NormedSpace.exp (V k) * NormedSpace.exp ((1 / 2 : ℝ) • -V k) := by
      rw [← exp_add_of_commute _ _ (Commute.smul_right (Commute.neg_right (Commute.refl (V k))) _)]
      congr 1
      module
    rw [← this, Matrix.mul_assoc, e]

/-- **C166**, special orthogonal groups: pairs of points without quotient with eigenvalue `-1`. -/
theorem C166_special_orthogonal {A B : Stack κ n n ℝ} {M : Stack κ n n ℂ} (hA : OnSO A)
    (hB : OnSO B) (hM : IsGPairMean (cplx A) (cplx B) M)
    (hne : ∀ k (x : n → ℝ), ((A k)ᴴ * B k) *ᵥ x = -x → x = 0) :
    ∃ N : Stack κ n n ℝ, M = cplx N ∧
      IntrinsicMean OnSO (fun X Y => IsGDist (cplx X) (cplx Y)) A B N ∧
      IsGPairMean (cplx B) (cplx A) M ∧ IsGPairMean (cplx A) (cplx A) (cplx A) := by
  have hAc := onUnitary_cplx hA.1
  have hBc := onUnitary_cplx hB.1
  obtain ⟨V, hV, hMV⟩ := id hM
  obtain ⟨h1, h2⟩ := C97_so_partial hA.1 hB.1 hV
  obtain ⟨W, rfl⟩ := h1.2 hne
  obtain ⟨hlie, hW⟩ := h2 W rfl
  obtain ⟨h3, h4, h5⟩ := C166_unitary hAc hBc hM
  have hN : M = cplx (gExp A ((1 / 2 : ℝ) • W)) := by
    rw [hMV]
    funext k
    change (A k).map Complex.ofReal * NormedSpace.exp ((1 / 2 : ℝ) • (W k).map Complex.ofReal) =
      (A k * NormedSpace.exp ((1 / 2 : ℝ) • W k)).map Complex.ofReal
    rw [map_mul_real, ← exp_map_real]
    congr 2
    ext i j
    simp
  have hNo : OnSO (gExp A ((1 / 2 : ℝ) • W)) := C96_exp_so hA (inLie_subspace.smul _ hlie)
  refine ⟨_, hN, ?_, h5 fun k x hx => ?_, h4⟩
  · refine (C166_midpoint C119_special_orthogonal hA hB hNo fun d hd => ?_).1
    rw [← hN]
    exact h3.half d hd
  · by_contra hx0
    have hq : (cplx A k)ᴴ * cplx B k = ((A k)ᴴ * B k).map Complex.ofReal := by
      rw [map_mul_real, ← map_conjTranspose_real]
      rfl
    rw [hq] at hx
    obtain ⟨v, hv, hv'⟩ := real_eigenvector hx0 hx
    exact hv (hne k v hv')

omit [Fintype κ] in
/-- **C166**: the exception is needed.  The means of a stack and its negative, taken in both orders,
are opposite, and none of them is a point of the special orthogonal group. -/
theorem C166_negation_opposite {A M N : Stack κ n n ℂ} [Nonempty κ] [Nonempty n] (hA : OnUnitary A)
    (hM : IsGPairMean A (-A) M) (hN : IsGPairMean (-A) A N) :
    N = -M ∧ N ≠ M ∧ ∀ X : Stack κ n n ℝ, A = cplx X → ∀ Y : Stack κ n n ℝ, M ≠ cplx Y := by
  have hA' : OnUnitary (-A) := fun k => by
    change (-A k)ᴴ * -A k = 1
    rw [conjTranspose_neg, Matrix.neg_mul, Matrix.mul_neg, neg_neg, hA k]
  have hlog : IsLogm (-1 : Matrix n n ℂ) (((Real.pi : ℂ) * Complex.I) • 1) := by
    refine ⟨by rw [exp_smul_one, Complex.exp_pi_mul_I, neg_one_smul], fun μ v hv he => ?_⟩
    rw [Matrix.smul_mulVec, one_mulVec] at he
    have h3 : ((Real.pi : ℂ) * Complex.I - μ) • v = 0 := by rw [sub_smul, he, sub_self]
    rw [← sub_eq_zero.mp ((smul_eq_zero.mp h3).resolve_right hv)]
    simp
    linarith [Real.pi_pos]
  have hl1 : IsGLog A (-A) fun _ => ((Real.pi : ℂ) * Complex.I) • 1 :=
    (isGLog_iff hA hA').2 fun k => by
      change IsLogm ((A k)ᴴ * -A k) _
      rw [Matrix.mul_neg, hA k]
      exact hlog
  have hl2 : IsGLog (-A) A fun _ => ((Real.pi : ℂ) * Complex.I) • 1 :=
    (isGLog_iff hA' hA).2 fun k => by
      change IsLogm ((-A k)ᴴ * A k) _
      rw [conjTranspose_neg, Matrix.neg_mul, hA k]
      exact hlog
  have he : NormedSpace.exp ((1 / 2 : ℝ) • ((Real.pi : ℂ) * Complex.I) • (1 : Matrix n n ℂ)) =
      Complex.I • 1 := by
    have : (1 / 2 : ℝ) • ((Real.pi : ℂ) * Complex.I) • (1 : Matrix n n ℂ) =
        ((Real.pi : ℂ) / 2 * Complex.I) • 1 := by
      rw [← smul_assoc]
      congr 1
      rw [Complex.real_smul]
      push_cast
      ring
    rw [this, exp_smul_one, Complex.exp_pi_div_two_mul_I]
  have eM : M = fun k => Complex.I • A k := by
    obtain ⟨V, hV, rfl⟩ := hM
    rw [(C97_total hA hA').unique hV hl1]
    funext k
    change A k * NormedSpace.exp ((1 / 2 : ℝ) • ((Real.pi : ℂ) * Complex.I) • (1 : Matrix n n ℂ)) = _
    rw [he, Matrix.mul_smul, Matrix.mul_one]
  have eN : N = fun k => -(Complex.I • A k) := by
    obtain ⟨V, hV, rfl⟩ := hN
    rw [(C97_total hA' hA).unique hV hl2]
    funext k
    change -A k * NormedSpace.exp ((1 / 2 : ℝ) • ((Real.pi : ℂ) * Complex.I) • (1 : Matrix n n ℂ)) = _
    rw [he, Matrix.mul_smul, Matrix.mul_one, smul_neg]
  obtain ⟨k⟩ := ‹Nonempty κ›
  have hne : A k ≠ 0 := fun h => by
    have := hA k
    rw [h, Matrix.mul_zero] at this
    exact zero_ne_one this
  refine ⟨by rw [eM, eN]; rfl, fun h => hne ?_, ?_⟩
  · have h1 := congrFun (eN.symm.trans (h.trans eM)) k
    have h2 : (2 * Complex.I) • A k = 0 := by
      rw [two_mul, add_smul]
      nth_rw 1 [← h1]
      exact neg_add_cancel _
    exact (smul_eq_zero.1 h2).resolve_left (by simp)
  · rintro X rfl Y h
    refine hne ?_
    ext i j
    have h1 := congrFun (congrFun (congrFun (eM.symm.trans h) k) i) j
    change Complex.I * ((X k i j : ℝ) : ℂ) = ((Y k i j : ℝ) : ℂ) at h1
    have h2 := congrArg Complex.im h1
    simp at h2
    change ((X k i j : ℝ) : ℂ) = 0
    rw [h2, Complex.ofReal_zero]

end group

/-! ## Products -/

section product
open Verif.Core
variable {A : Type*} [PyArr A] {ms : List (PyMfd A)} {P : ℕ → Val A → Prop} {same : ℕ → Val A → Val A → Prop}

/-- **C166**, products: if `pair_mean` of every factor returns an intrinsic mean of the components
then `pair_mean` of the product returns an intrinsic mean of the points, the only one if the means of
the components are. -/
theorem C166_product {k k' : SeqKind} {ps qs rs : List (Val A)}
    (h : ∀ (i : ℕ) M, ms[i]? = some M → IsMetricOn (P i) (same i) fun x y d => M.dist x y = .ok d)
    (hp : ProductPoint ms P (.seq k ps)) (hq : ProductPoint ms P (.seq k' qs))
    (hr : rs.length = ms.length)
    (hm : ∀ (i : ℕ) M x y z, ms[i]? = some M → ps[i]? = some x → qs[i]? = some y → rs[i]? = some z →
      M.pairMean x y = .ok z ∧ IntrinsicMean (P i) (fun x y d => M.dist x y = .ok d) x y z) :
    prodPairMean ms (.seq k ps) (.seq k' qs) = .ok (.seq .list rs) ∧
      IntrinsicMean (ProductPoint ms P) (fun x y d => prodDist ms x y = .ok d) (.seq k ps)
        (.seq k' qs) (.seq .list rs) ∧
      ((∀ (i : ℕ) M x y z, ms[i]? = some M → ps[i]? = some x → qs[i]? = some y → rs[i]? = some z →
        UniqueMean (P i) (same i) (fun x y d => M.dist x y = .ok d) x y z) →
        UniqueMean (ProductPoint ms P) (ProductSame same) (fun x y d => prodDist ms x y = .ok d)
          (.seq k ps) (.seq k' qs) (.seq .list rs)) := by
  obtain ⟨_, _, he, hlp, hp'⟩ := id hp
  injection he with he1 he2
  subst he1 he2
  obtain ⟨_, _, he, hlq, hq'⟩ := id hq
  injection he with he1 he2
  subst he1 he2
  have gp : ∀ i : Fin ms.length, ps[i.1]? = some (ps[i.1]'(by omega)) := fun i =>
    List.getElem?_eq_getElem _
  have gq : ∀ i : Fin ms.length, qs[i.1]? = some (qs[i.1]'(by omega)) := fun i =>
    List.getElem?_eq_getElem _
  have gr : ∀ i : Fin ms.length, rs[i.1]? = some (rs[i.1]'(by omega)) := fun i =>
    List.getElem?_eq_getElem _
  have gm : ∀ i : Fin ms.length, ms[i.1]? = some ms[i] := fun i => List.getElem?_eq_getElem _
  have hm' := fun i : Fin ms.length => (hm i _ _ _ _ (gm i) (gp i) (gq i) (gr i)).2
  have h' := fun i : Fin ms.length => h i _ (gm i)
  have hrP : ProductPoint ms P (.seq .list rs) := by
    refine ⟨_, rs, rfl, hr, fun i z hz => ?_⟩
    obtain ⟨hi, rfl⟩ := List.getElem?_eq_some_iff.1 hz
    exact (hm' ⟨i, by omega⟩).on
  have half : ∀ d, prodDist ms (.seq k ps) (.seq k' qs) = .ok d →
      prodDist ms (.seq k ps) (.seq .list rs) = .ok (d / 2) ∧
        prodDist ms (.seq .list rs) (.seq k' qs) = .ok (d / 2) := by
    intro x hx
    obtain ⟨d, hd, rfl⟩ := (prodDist_ok_iff hlp hlq k k' x).1 hx
    have e : √(∑ i, d i ^ 2) / 2 = √(∑ i, (d i / 2) ^ 2) := by
      have h1 : ∑ i, (d i / 2) ^ 2 = (∑ i, d i ^ 2) / 2 ^ 2 := by
        rw [Finset.sum_div]
        exact Finset.sum_congr rfl fun i _ => div_pow _ _ _
      rw [h1, Real.sqrt_div' _ (by norm_num), Real.sqrt_sq (by norm_num)]
    rw [e]
    exact ⟨(prodDist_ok_iff hlp hr _ _ _).2 ⟨_, fun i => ((hm' i).half _ (hd i)).1, rfl⟩,
      (prodDist_ok_iff hr hlq _ _ _).2 ⟨_, fun i => ((hm' i).half _ (hd i)).2, rfl⟩⟩
  have hmid := C166_midpoint (C119_product h) hp hq hrP half
  refine ⟨((C45_componentwise hlp hlq k k' _).2.2.2.2.2.2.1).2 ⟨rs, ⟨hr, ?_⟩, rfl⟩, hmid.1,
    fun hu => hmid.2 ?_⟩
  · exact fun i M x y z h1 h2 h3 h4 => (hm i M x y z h1 h2 h3 h4).1
  · rintro _ ⟨k'', xs, rfl, hlx, hx⟩ d hd h1 h2
    refine ⟨_, _, _, _, rfl, rfl, fun i x z hxi hzi => ?_⟩
    obtain ⟨t, ht, rfl⟩ := (prodDist_ok_iff hlp hlq k k' d).1 hd
    obtain ⟨u, hu', hue⟩ := (prodDist_ok_iff hlp hlx _ _ _).1 h1
    obtain ⟨w, hw, hwe⟩ := (prodDist_ok_iff hlx hlq _ _ _).1 h2
    have hxP : ∀ i : Fin ms.length, P i (xs[i.1]'(by omega)) := fun i =>
      hx i _ (List.getElem?_eq_getElem _)
    have hpP : ∀ i : Fin ms.length, P i (ps[i.1]'(by omega)) := fun i => hp' i _ (gp i)
    have hqP : ∀ i : Fin ms.length, P i (qs[i.1]'(by omega)) := fun i => hq' i _ (gq i)
    have sq : ∀ {f : Fin ms.length → ℝ}, √(∑ i, t i ^ 2) / 2 = √(∑ i, f i ^ 2) →
        4 * ∑ i, f i ^ 2 = ∑ i, t i ^ 2 := fun {f} hf => by
      have h3 := congrArg (fun x => x ^ 2) hf
      simp only [div_pow] at h3
      rw [Real.sq_sqrt (Finset.sum_nonneg fun _ _ => sq_nonneg _),
        Real.sq_sqrt (Finset.sum_nonneg fun _ _ => sq_nonneg _)] at h3
      linarith
    obtain ⟨hi, rfl⟩ := List.getElem?_eq_some_iff.1 hxi
    have hj : i < ms.length := by omega
    obtain ⟨e1, e2⟩ := parts (fun i => (h' i).nonneg _ _ _ (hpP i) (hqP i) (ht i))
      (fun i => (h' i).triangle _ _ _ _ _ _ (hpP i) (hxP i) (hqP i) (hu' i) (hw i) (ht i))
      (sq hue) (sq hwe) ⟨i, hj⟩
    have hmi := hu i _ _ _ z (gm ⟨i, hj⟩) (gp ⟨i, hj⟩) (gq ⟨i, hj⟩) hzi
    obtain ⟨f1, f2⟩ := hmi.half _ (ht ⟨i, hj⟩)
    refine hmi.unique _ (hxP ⟨i, hj⟩) _ _ _ _ f1 f2 (hu' ⟨i, hj⟩) (hw ⟨i, hj⟩) ?_
    rw [e1, e2]

end product

/-! ## The hypotheses can be met -/

/-- Skew-symmetric matrices are closed under `pair_mean`, and so are the vectors of a plane. -/
example : (∀ x y : Fin 2 × Fin 2 → ℝ, (∀ i j, x (i, j) = -x (j, i)) → (∀ i j, y (i, j) = -y (j, i)) →
      ∀ i j, eucPairMean x y (i, j) = -eucPairMean x y (j, i)) ∧
    ∀ x y : Fin 3 → ℝ, x 2 = 0 → y 2 = 0 → spherePairMean x y 2 = 0 := by
  refine ⟨fun x y hx hy i j => ?_, fun x y hx hy => ?_⟩
  · simp only [eucPairMean, Pi.smul_apply, Pi.add_apply, smul_eq_mul]
    rw [hx i j, hy i j]
    ring
  · simp [spherePairMean, sphereNormalize, hx, hy]

/-- Orthogonal unit vectors are not antipodal. -/
example : OnSphere ![(1 : ℝ), 0] ∧ OnSphere ![(0 : ℝ), 1] ∧ ![(0 : ℝ), 1] ≠ -![(1 : ℝ), 0] := by
  refine ⟨by simp [OnSphere, Fin.sum_univ_two], by simp [OnSphere, Fin.sum_univ_two], fun h => ?_⟩
  have := congrFun h 1
  simp at this

/-- Neither are the columns of the identity and those of a quarter turn. -/
example : OnOblique !![(1 : ℝ), 0; 0, 1] ∧ OnOblique !![(0 : ℝ), -1; 1, 0] ∧
    ∀ j, colOf !![(0 : ℝ), -1; 1, 0] j ≠ -colOf !![(1 : ℝ), 0; 0, 1] j := by
  refine ⟨fun j => ?_, fun j => ?_, fun j h => ?_⟩
  · fin_cases j <;> simp [OnSphere, colOf, Fin.sum_univ_two]
  · fin_cases j <;> simp [OnSphere, colOf, Fin.sum_univ_two]
  · have h0 := congrFun h 0
    have h1 := congrFun h 1
    fin_cases j <;> simp [colOf] at h0 h1

/-- Nor are `1` and `i`. -/
example : OnCircles ![(1 : ℂ)] ∧ OnCircles ![Complex.I] ∧ ∀ i, ![Complex.I] i ≠ -![(1 : ℂ)] i := by
  refine ⟨fun i => by fin_cases i; simp, fun i => by fin_cases i; simp, fun i h => ?_⟩
  fin_cases i
  have := congrArg Complex.re h
  simp at this

/-- Different points of the interval `(-1, 1)`. -/
example : InBalls (κ := Unit) (fun _ => ![(0 : ℝ)]) ∧ InBalls (κ := Unit) (fun _ => ![(1 / 2 : ℝ)]) ∧
    ∀ k, (fun _ : Unit => ![(0 : ℝ)]) k ≠ (fun _ : Unit => ![(1 / 2 : ℝ)]) k := by
  refine ⟨fun k => ?_, fun k => ?_, fun k h => ?_⟩
  · simp [InBall]
  · simp [InBall]; norm_num
  · have := congrFun h 0
    simp at this

/-- A rotation whose quotient with the identity does not have the eigenvalue `-1`. -/
example : OnSO (κ := Unit) (fun _ => (1 : Matrix (Fin 2) (Fin 2) ℝ)) ∧
    OnSO (κ := Unit) (fun _ => !![(0 : ℝ), -1; 1, 0]) ∧
    ∀ v : Fin 2 → ℝ, ((1 : Matrix (Fin 2) (Fin 2) ℝ)ᴴ * !![(0 : ℝ), -1; 1, 0]) *ᵥ v = -v →
      v = 0 := by
  refine ⟨⟨fun k => by simp, fun k => by simp⟩, ⟨fun k => ?_, fun k => by simp⟩, fun v hv => ?_⟩
  · ext i j; fin_cases i <;> fin_cases j <;> simp [mul_apply, Fin.sum_univ_two]
  · rw [conjTranspose_one, Matrix.one_mul] at hv
    have h0 := congrFun hv 0
    have h1 := congrFun hv 1
    simp [mulVec, dotProduct, Fin.sum_univ_two] at h0 h1
    ext i
    fin_cases i
    · change v 0 = 0; linarith
    · change v 1 = 0; linarith

section line
open Verif.Core

/-- The line with its mean. -/
private noncomputable def meanLine : PyMfd ℝ :=
  { scaledLine with
    pairMean := fun p q => match p, q with
      | .arr p, .arr q => .ok (.arr ((p + q) / 2))
      | _, _ => .error .typeError }

/-- The means of the components of `(0, 0)` and `(3, 4)` are intrinsic means, so that the mean in the
plane is `(3 / 2, 2)`. -/
example : (∀ (i : ℕ) M x y z, [meanLine, meanLine][i]? = some M → [.arr 0, .arr 0][i]? = some x →
    [.arr 3, .arr 4][i]? = some y → [.arr (3 / 2), .arr 2][i]? = some z →
      M.pairMean x y = .ok z ∧
        IntrinsicMean (fun v => ∃ x : ℝ, v = .arr x) (fun x y d => M.dist x y = .ok d) x y z) ∧
    prodPairMean [meanLine, meanLine] (.seq .list [.arr 0, .arr 0]) (.seq .list [.arr 3, .arr 4]) =
      .ok (.seq .list [.arr (3 / 2), .arr 2]) := by
  have key : ∀ p q m : ℝ, m = (p + q) / 2 → meanLine.pairMean (.arr p) (.arr q) = .ok (.arr m) ∧
      IntrinsicMean (fun v => ∃ x : ℝ, v = .arr x) (fun x y d => meanLine.dist x y = .ok d) (.arr p)
        (.arr q) (.arr m) := by
    rintro p q m rfl
    refine ⟨rfl, ⟨_, rfl⟩, fun d hd => ?_, ?_⟩
    · obtain rfl := Except.ok.inj hd
      refine ⟨congrArg Except.ok ?_, congrArg Except.ok ?_⟩
      · rw [show p - (p + q) / 2 = (p - q) / 2 by ring, abs_div, abs_two]
      · rw [show (p + q) / 2 - q = (p - q) / 2 by ring, abs_div, abs_two]
    · rintro _ ⟨x, rfl⟩ d₁ d₂ e₁ e₂ h1 h2 h3 h4
      obtain rfl := Except.ok.inj h1
      obtain rfl := Except.ok.inj h2
      obtain rfl := Except.ok.inj h3
      obtain rfl := Except.ok.inj h4
      simp only [sq_abs]
      nlinarith [sq_nonneg (2 * x - p - q)]
  have h : ∀ (i : ℕ) M x y z, [meanLine, meanLine][i]? = some M → [.arr 0, .arr 0][i]? = some x →
      [.arr 3, .arr 4][i]? = some y → [.arr (3 / 2), .arr 2][i]? = some z →
      M.pairMean x y = .ok z ∧
        IntrinsicMean (fun v => ∃ x : ℝ, v = .arr x) (fun x y d => M.dist x y = .ok d) x y z := by
    intro i M x y z h1 h2 h3 h4
    match i with
    | 0 =>
      obtain rfl := Option.some.inj h1
      obtain rfl := Option.some.inj h2
      obtain rfl := Option.some.inj h3
      obtain rfl := Option.some.inj h4
      exact key 0 3 _ (by norm_num)
    | 1 =>
      obtain rfl := Option.some.inj h1
      obtain rfl := Option.some.inj h2
      obtain rfl := Option.some.inj h3
      obtain rfl := Option.some.inj h4
      exact key 0 4 _ (by norm_num)
    | n + 2 => cases h1
  exact ⟨h, ((C45_componentwise rfl rfl _ _ _).2.2.2.2.2.2.1).2
    ⟨_, ⟨rfl, fun i M x y z h1 h2 h3 h4 => (h i M x y z h1 h2 h3 h4).1⟩, rfl⟩⟩

end line

end Verif.Geo
