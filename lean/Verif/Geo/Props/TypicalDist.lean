/-
`typical_dist` gives trust regions a valid radius and bounds the distances on bounded manifolds
(C120).
-/
import Verif.Geo.Model.TypicalDist
import Verif.Geo.Props.Metric
import Verif.Geo.Props.Dim
import Verif.Opt.Props.TR

namespace Verif.Geo
open scoped BigOperators
open Matrix

/-! ### Radii -/

theorem stTypical_pos {p k : ℕ} (hp : 0 < p) (hk : 0 < k) : 0 < stTypical p k :=
  Real.sqrt_pos.mpr (by exact_mod_cast Nat.mul_pos hp hk)

theorem pos_of_mul_sum_pos {k : ℕ} {a : ℤ} (h : 0 < (k : ℤ) * a) : 0 < k :=
  Nat.pos_of_ne_zero fun h0 => by simp [h0] at h

/-- C120: on every manifold class `typical_dist` is positive if the dimension is. -/
theorem C120_positive (m n p k : ℕ) (dim : ℤ) :
    (0 < dim → 0 < sqrtDimTypical dim) ∧ (0 < dim → 0 < sphereTypical) ∧
    (0 < oblDim m n → 0 < oblTypical n) ∧ (0 < ccDim n → 0 < ccTypical (ccDim n)) ∧
    (0 < stDim n p k → 0 < stTypical p k) ∧ (0 < grDim n p k → 0 < stTypical p k) ∧
    (0 < cgrDim n p k → 0 < stTypical p k) ∧ (0 < psdDim n k → 0 < psdTypical k) ∧
    (0 < psdComplexDim n k → 0 < psdTypical k) ∧ (0 < k → 0 < ellDim n k → 0 < ellTypical k) ∧
    (0 < pbDim n k → 0 < pbTypical (pbDim n k)) ∧ (0 < frDim m n k → 0 < frTypical (frDim m n k)) ∧
    (0 < soDim n k → 0 < gTypical n k) ∧ (0 < unDim n k → 0 < gTypical n k) := by
  have hpsd : 0 < psdTypical k := by rw [psdTypical]; positivity
  have hg : 0 < n → 0 < k → 0 < gTypical n k := fun hn hk =>
    mul_pos Real.pi_pos (Real.sqrt_pos.mpr (by exact_mod_cast Nat.mul_pos hn hk))
  refine ⟨fun h => Real.sqrt_pos.mpr (by exact_mod_cast h), fun _ => Real.pi_pos, fun h => ?_,
    fun h => mul_pos Real.pi_pos (Real.sqrt_pos.mpr (by exact_mod_cast h)), fun h => ?_,
    fun h => ?_, fun h => ?_, fun _ => hpsd, fun _ => hpsd, fun hk _ => ?_, fun h => ?_, fun h => ?_,
    fun h => ?_, fun h => ?_⟩
  · have hn : 0 < n := Nat.pos_of_ne_zero fun h0 => by simp [oblDim, h0] at h
    exact mul_pos Real.pi_pos (Real.sqrt_pos.mpr (by exact_mod_cast hn))
  · refine stTypical_pos (Nat.pos_of_ne_zero fun h0 => ?_) (pos_of_mul_sum_pos h)
    simp [stDim, h0] at h
  · refine stTypical_pos (Nat.pos_of_ne_zero fun h0 => ?_) (pos_of_mul_sum_pos h)
    simp [grDim, h0] at h
  · refine stTypical_pos (Nat.pos_of_ne_zero fun h0 => ?_) (Nat.pos_of_ne_zero fun h0 => ?_)
    · simp [cgrDim, h0] at h
    · simp [cgrDim, h0] at h
  · rw [ellTypical]; positivity
  · rw [pbTypical]; have : (0 : ℝ) < pbDim n k := by exact_mod_cast h
    positivity
  · rw [frTypical]; exact_mod_cast h
  · refine hg (Nat.pos_of_ne_zero fun h0 => ?_) (pos_of_mul_sum_pos h)
    simp [soDim, h0] at h
  · refine hg (Nat.pos_of_ne_zero fun h0 => ?_) (pos_of_mul_sum_pos h)
    simp [unDim, h0] at h

/-- C120: so by default trust regions starts with radius `typical_dist / 8` and keeps it between
zero and `typical_dist`. -/
theorem C120_radii (dim : ℕ) (b : Bool) {t : ℝ} (ht : 0 < t) :
    ∃ b', Verif.Opt.trRadii (F := Verif.Num ℝ) dim (some ⟨b, .fin t⟩) none none =
      .ok (⟨b, .fin t⟩, ⟨b', .fin (t / 8)⟩) ∧ 0 < t / 8 ∧ t / 8 ≤ t := by
  have h8 : ((8 : ℚ) : ℝ) = 8 := by norm_num
  refine ⟨b || false, ?_, by positivity, by linarith⟩
  simp [Verif.Opt.trRadii, Verif.PyNum.div, Verif.PyNum.lit, Verif.XF.div]

/-- C120: without positive dimension the default radii are zero on the Euclidean spaces. -/
theorem C120_zero_dimension : sqrtDimTypical (skewDim 1 1 : ℕ) = 0 := by
  simp [sqrtDimTypical, skewDim]

/-! ### Distances -/

/-- C120, sphere: no two points are further apart than `typical_dist`, and antipodes are that far
apart. -/
theorem C120_sphere {ι : Type*} [Fintype ι] (a b : ι → ℝ) (ha : OnSphere a) (hb : OnSphere b) :
    sphereDist a b ≤ sphereTypical ∧ OnSphere (-a) ∧ sphereDist a (-a) = sphereTypical := by
  have hn : OnSphere (-a) := by simpa [OnSphere] using ha
  refine ⟨(C58_metric a b b ha hb hb).2.2.1, hn, ?_⟩
  rw [sphereDist_eq ha hn, sphereTypical, tensordot_inner.neg_right, ha.dot, Real.arccos_neg,
    Real.arccos_one, sub_zero]

/-- C120, oblique manifold. -/
theorem C120_oblique {m : Type*} [Fintype m] {n : ℕ} (A B : Matrix m (Fin n) ℝ) (hA : OnOblique A)
    (hB : OnOblique B) :
    oblDist A B ≤ oblTypical n ∧ OnOblique (-A) ∧ oblDist A (-A) = oblTypical n := by
  have hn : OnOblique (-A) := fun j => (C120_sphere _ _ (hA j) (hA j)).2.1
  have e : ∀ B : Matrix m (Fin n) ℝ, OnOblique B →
      oblDist A B = √(∑ j, sphereDist (colOf A j) (colOf B j) ^ 2) := fun B hB => by
    rw [← (C63_distance A B 0 hA hB).1]; exact (Real.sqrt_sq (npNorm_nonneg _)).symm
  have e' : oblTypical n = √(∑ _j : Fin n, Real.pi ^ 2) := by
    rw [Finset.sum_const, Finset.card_univ, Fintype.card_fin, nsmul_eq_mul, mul_comm,
      Real.sqrt_mul (sq_nonneg _), Real.sqrt_sq Real.pi_pos.le, oblTypical]
  refine ⟨?_, hn, ?_⟩
  · rw [e B hB, e']
    refine Real.sqrt_le_sqrt (Finset.sum_le_sum fun j _ => ?_)
    have h := C58_metric _ _ _ (hA j) (hB j) (hB j)
    exact pow_le_pow_left₀ h.2.1 h.2.2.1 2
  · rw [e _ hn, e']
    congr 1
    refine Finset.sum_congr rfl fun j _ => ?_
    rw [show colOf (-A) j = -colOf A j from rfl, (C120_sphere _ _ (hA j) (hA j)).2.2, sphereTypical]

/-- C120, complex circles. -/
theorem C120_complex_circle {n : ℕ} (a b : Fin n → ℂ) (ha : OnCircles a) :
    ccDist a b ≤ ccTypical (ccDim n) ∧ OnCircles (-a) ∧ ccDist a (-a) = ccTypical (ccDim n) := by
  have hn : OnCircles (-a) := fun i => by rw [Pi.neg_apply, norm_neg]; exact ha i
  have e' : ccTypical (ccDim n) = npNorm fun _ : Fin n => Real.pi := by
    rw [npNorm, Finset.sum_const, Finset.card_univ, Fintype.card_fin, nsmul_eq_mul, mul_comm,
      Real.norm_of_nonneg Real.pi_pos.le, Real.sqrt_mul (sq_nonneg _), Real.sqrt_sq Real.pi_pos.le,
      ccTypical, ccDim]
  refine ⟨?_, hn, ?_⟩
  · rw [e']
    exact npNorm_mono (fun i => Real.arccos_nonneg _) fun i => Real.arccos_le_pi _
  · rw [e', ccDist]
    congr 1
    funext i
    exact (circle_eq_of_dot (ha i) (hn i)).2.mpr (by simp)

/-! ### Groups -/

theorem IsLogm.trDot_le {n : ℕ} {P L : Matrix (Fin n) (Fin n) ℂ} (hP : Pᴴ * P = 1)
    (h : IsLogm P L) : trDot L L ≤ n * Real.pi ^ 2 := by
  obtain ⟨θ, W, hθ, hW, he⟩ := exists_unitary_diag hP
  have h1 := (IsLogm.sq_norm hW (a := fun i => Complex.exp (θ i * Complex.I))
    (fun i => Complex.norm_exp_ofReal_mul_I _) (he ▸ h)).2
  rw [h1]
  calc _ ≤ ∑ _i : Fin n, Real.pi ^ 2 := Finset.sum_le_sum fun i _ => by
        rw [← sq_abs]
        exact pow_le_pow_left₀ (abs_nonneg _) (Complex.abs_arg_le_pi _) 2
    _ = _ := by simp

theorem IsLogm.trDot_neg_one {n : ℕ} {L : Matrix (Fin n) (Fin n) ℂ}
    (h : IsLogm (-1) L) : trDot L L = n * Real.pi ^ 2 := by
  have h1 := (IsLogm.sq_norm (v := 1) (L := L) (by simp) (a := fun _ : Fin n => -1) (by simp)
    (by simpa [← diagonal_one, ← diagonal_neg] using h)).2
  rw [h1]
  simp

/-- C120, unitary group. -/
theorem C120_unitary {n k : ℕ} {A B : Stack (Fin k) (Fin n) (Fin n) ℂ} (hA : OnUnitary A)
    (hB : OnUnitary B) {d : ℝ} (hd : IsGDist A B d) :
    d ≤ gTypical n k ∧ OnUnitary (-A) ∧ ∀ e, IsGDist A (-A) e → e = gTypical n k := by
  have hn : OnUnitary (-A) := fun j => by
    rw [Pi.neg_apply, conjTranspose_neg, neg_mul_neg]; exact hA j
  have e : ∀ X V : Stack (Fin k) (Fin n) (Fin n) ℂ, gNorm X V = √(∑ k, trDot (V k) (V k)) :=
    fun X V => by rw [← gNorm_sq X V]; exact (Real.sqrt_sq (stackNorm_nonneg _)).symm
  have e' : gTypical n k = √(∑ _j : Fin k, n * Real.pi ^ 2) := by
    rw [Finset.sum_const, Finset.card_univ, Fintype.card_fin, nsmul_eq_mul, gTypical,
      ← mul_assoc, mul_comm, Real.sqrt_mul' _ (sq_nonneg _), Real.sqrt_sq Real.pi_pos.le]
    push_cast
    rw [mul_comm (n : ℝ)]
  refine ⟨?_, hn, ?_⟩
  · obtain ⟨V, hV, rfl⟩ := hd
    rw [e, e']
    exact Real.sqrt_le_sqrt (Finset.sum_le_sum fun j _ =>
      ((isGLog_iff hA hB).mp hV j).trDot_le (quotient_unitary hA hB j))
  · rintro _ ⟨V, hV, rfl⟩
    rw [e, e']
    congr 1
    refine Finset.sum_congr rfl fun j _ => ?_
    have h1 := (isGLog_iff hA hn).mp hV j
    rw [Pi.neg_apply, Matrix.mul_neg, hA j] at h1
    exact h1.trDot_neg_one

/-- C120, special orthogonal group; for matrices of even size `typical_dist` is attained. -/
theorem C120_special_orthogonal {n k : ℕ} {A B : Stack (Fin k) (Fin n) (Fin n) ℝ} (hA : OnSO A)
    (hB : OnSO B) {d : ℝ} (hd : IsGDist (cplx A) (cplx B) d) :
    d ≤ gTypical n k ∧
      (Even n → OnSO (-A) ∧ ∀ e, IsGDist (cplx A) (cplx (-A)) e → e = gTypical n k) := by
  have h := C120_unitary (onUnitary_cplx hA.1) (onUnitary_cplx hB.1) hd
  refine ⟨h.1, fun hn => ⟨⟨fun j => ?_, fun j => ?_⟩, fun e he => h.2.2 e ?_⟩⟩
  · rw [Pi.neg_apply, conjTranspose_neg, neg_mul_neg]; exact hA.1 j
  · rw [Pi.neg_apply, det_neg, Fintype.card_fin, hn.neg_one_pow, one_mul]; exact hA.2 j
  · have : cplx (-A) = -cplx A := by
      funext j; ext i l; simp [cplx]
    rwa [this] at he

/-! ### Subspaces -/

theorem svdAngle_le {x : ℝ} (hx : 0 ≤ x) : svdAngle x ≤ Real.pi / 2 := by
  rw [svdAngle]
  refine Real.arccos_le_pi_div_two.mpr ?_
  split_ifs <;> linarith

theorem grassmann_scale (p k : ℕ) :
    Real.pi / 2 * stTypical p k = √(∑ _j : Fin k, ∑ _i : Fin p, (Real.pi / 2) ^ 2) := by
  simp only [Finset.sum_const, Finset.card_univ, Fintype.card_fin, nsmul_eq_mul]
  rw [← mul_assoc, mul_comm, Real.sqrt_mul' _ (sq_nonneg _), Real.sqrt_sq (by positivity), stTypical]
  push_cast
  rw [mul_comm (p : ℝ)]

/-- C120, Grassmann manifolds, real and complex: no two points are further apart than `π / 2` times
`typical_dist`.  Missing: the bound without the factor, which is false (`C120_grassmann_negation`). -/
theorem C120_grassmann_partial {n : Type*} [Fintype n] {p k : ℕ} {𝕜 : Type*} [RCLike 𝕜]
    {X Y : Stack (Fin k) n (Fin p) 𝕜} {d : ℝ} (hd : IsGrDist X Y d) :
    d ≤ Real.pi / 2 * stTypical p k := by
  obtain ⟨u, s, vt, h, rfl⟩ := hd
  have e : grDist s = √(∑ k, ∑ i, svdAngle (s k i) ^ 2) := by
    rw [← grDist_sq, Real.sqrt_sq (grDist_nonneg _)]
  rw [e, grassmann_scale]
  refine Real.sqrt_le_sqrt (Finset.sum_le_sum fun j _ => Finset.sum_le_sum fun i _ => ?_)
  exact pow_le_pow_left₀ (Real.arccos_nonneg _) (svdAngle_le ((h j).nonneg i)) 2

/-- C120 fails on Grassmann manifolds: orthogonal subspaces are further apart than
`typical_dist`. -/
theorem C120_grassmann_negation {n : Type*} [Fintype n] {p k : ℕ} {𝕜 : Type*} [RCLike 𝕜]
    {X Y : Stack (Fin k) n (Fin p) 𝕜} (hp : 0 < p) (hk : 0 < k)
    (hXY : ∀ j, (X j)ᴴ * Y j = 0) {d : ℝ} (hd : IsGrDist X Y d) :
    d = Real.pi / 2 * stTypical p k ∧ stTypical p k < d := by
  obtain ⟨u, s, vt, h, rfl⟩ := hd
  have hs : ∀ j i, s j i = 0 := by
    intro j i
    have h1 : (0 : Matrix (Fin p) (Fin p) 𝕜) = u j * diagonal (fun i => (s j i : 𝕜)) * vt j := by
      rw [← (h j).prod]; exact (hXY j).symm
    have h2 : (diagonal fun i => (s j i : 𝕜)) =
        (u j)ᴴ * (u j * diagonal (fun i => (s j i : 𝕜)) * vt j) * (vt j)ᴴ := by
      calc _ = (u j)ᴴ * u j * diagonal (fun i => (s j i : 𝕜)) * (vt j * (vt j)ᴴ) := by
            rw [(h j).orthU, (h j).orthV, Matrix.one_mul, Matrix.mul_one]
        _ = _ := by simp only [Matrix.mul_assoc]
    rw [← h1, Matrix.mul_zero, Matrix.zero_mul] at h2
    have h3 := congrFun (congrFun h2 i) i
    rw [diagonal_apply_eq, Matrix.zero_apply] at h3
    exact_mod_cast h3
  have hd : grDist s = Real.pi / 2 * stTypical p k := by
    rw [grassmann_scale, ← Real.sqrt_sq (grDist_nonneg s), grDist_sq]
    congr 1
    refine Finset.sum_congr rfl fun j _ => Finset.sum_congr rfl fun i _ => ?_
    rw [hs j i, svdAngle, if_neg (by norm_num), Real.arccos_zero]
  refine ⟨hd, ?_⟩
  rw [hd]
  have h1 := stTypical_pos hp hk
  have h2 := Real.pi_gt_three
  nlinarith

/-! ### Products -/

section Product
open Verif.Core
variable {A : Type*} [PyArr A] {ms : List (PyMfd A)}

/-- C120, products: the root of the sum of squares of the factors' values, which bounds the
distances if the factors' values do (up to the same factor), and is positive if one of them is. -/
theorem C120_product {t : ℕ → ℝ} (ht : ∀ (i : ℕ) (M : PyMfd A), ms[i]? = some M → M.typicalDist = .ok (t i)) :
    ∃ T, prodTypicalDist ms = .ok T ∧ T ^ 2 = ∑ i : Fin ms.length, t i ^ 2 ∧ 0 ≤ T ∧
      ((∃ i : Fin ms.length, t i ≠ 0) → 0 < T) ∧
      ∀ (P : ℕ → Val A → Prop) (c : ℝ), 0 ≤ c →
        (∀ (i : ℕ) (M : PyMfd A) x y d, ms[i]? = some M → P i x → P i y → M.dist x y = .ok d →
          |d| ≤ c * t i) →
        ∀ p q d, ProductPoint ms P p → ProductPoint ms P q → prodDist ms p q = .ok d →
          d ≤ c * T := by
  refine ⟨√(∑ i : Fin ms.length, t i ^ 2), ?_, Real.sq_sqrt (Finset.sum_nonneg fun _ _ => sq_nonneg _),
    Real.sqrt_nonneg _, ?_, ?_⟩
  · unfold prodTypicalDist
    refine (map_ok_iff _ _ _).mpr ⟨List.ofFn fun i : Fin ms.length => t i ^ 2,
      (sequence_ok_iff _ _).mpr ?_, by rw [List.sum_ofFn]⟩
    apply List.ext_getElem
    · simp
    · intro i h1 h2
      have hi : i < ms.length := by simpa using h1
      simp [ht i ms[i] (List.getElem?_eq_getElem hi), Except.map]
  · rintro ⟨i, hi⟩
    refine Real.sqrt_pos.mpr (Finset.sum_pos' (fun _ _ => sq_nonneg _) ⟨i, Finset.mem_univ _, ?_⟩)
    positivity
  · rintro P c hc hb _ _ d ⟨k, ps, rfl, hl, hp⟩ ⟨k', qs, rfl, hl', hq⟩ hd
    obtain ⟨e, he, rfl⟩ := (prodDist_ok_iff hl hl' k k' d).mp hd
    rw [← Real.sqrt_sq hc, ← Real.sqrt_mul (sq_nonneg c), Finset.mul_sum]
    refine Real.sqrt_le_sqrt (Finset.sum_le_sum fun i _ => ?_)
    have h1 := hb i ms[i] _ _ _ (by simp) (hp i _ (List.getElem?_eq_getElem _))
      (hq i _ (List.getElem?_eq_getElem _)) (he i)
    rw [← sq_abs, ← mul_pow]
    exact pow_le_pow_left₀ (abs_nonneg _) h1 2

end Product

/-! ### The hypotheses can be met -/

/-- Orthogonal lines. -/
example : Orthonormal' (κ := Fin 1) (fun _ => !![(1 : ℝ); 0]) ∧
    Orthonormal' (κ := Fin 1) (fun _ => !![(0 : ℝ); 1]) ∧
    (!![(1 : ℝ); 0])ᴴ * !![(0 : ℝ); 1] = 0 := by
  refine ⟨?_, ?_, ?_⟩
  · intro k i j; fin_cases i; fin_cases j; simp [Fin.sum_univ_two]
  · intro k i j; fin_cases i; fin_cases j; simp [Fin.sum_univ_two]
  · ext i j; simp [Matrix.mul_apply, Fin.sum_univ_two]

example : sqrtDimTypical (symDim 1 2 : ℕ) = √3 ∧ 0 < grDim 3 1 1 ∧ 0 < soDim 2 1 := by
  refine ⟨by simp [sqrtDimTypical, symDim], by simp [grDim], by simp [soDim]⟩

end Verif.Geo
