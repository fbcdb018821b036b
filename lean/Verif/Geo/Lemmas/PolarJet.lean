/-
Second order expansions of curves defined by matrix factorisations: the polar factor of a line and
the exponential of the Grassmann manifold.
-/
import Verif.Geo.Lemmas.Jet
import Verif.Geo.Props.SecondOrder

namespace Verif.Geo
open scoped BigOperators Topology ComplexOrder
open Matrix Filter Asymptotics

variable {m n : Type*} {𝕜 : Type*} [RCLike 𝕜]

theorem gram_eigen_nonneg [Fintype m] [Fintype n] [DecidableEq n] {V : Matrix m n 𝕜} {w : n → ℝ}
    {v : Matrix n n 𝕜} (h : IsEigh (Vᴴ * V) w v) (i : n) :
    w i = ∑ j, ‖(V * v) j i‖ ^ 2 := by
  have h1 : (V * v)ᴴ * (V * v) = diagonal fun i => (w i : 𝕜) := by
    calc (V * v)ᴴ * (V * v) = vᴴ * (Vᴴ * V) * v := by
          rw [conjTranspose_mul]; simp only [Matrix.mul_assoc]
      _ = vᴴ * v * diagonal (fun i => (w i : 𝕜)) * (vᴴ * v) := by
          rw [h.prod]; simp only [Matrix.mul_assoc]
      _ = _ := by rw [h.orth, Matrix.one_mul, Matrix.mul_one]
  have h2 := congrFun (congrFun h1 i) i
  rw [gram_apply_self, diagonal_apply_eq] at h2
  exact_mod_cast h2.symm

/-- Expansion of `v diag(g) vᴴ`. -/
theorem matJet_diag [Fintype n] [DecidableEq n] (v : Matrix n n 𝕜) {g : ℝ → n → ℝ} {a b c : n → ℝ}
    (h : ∀ i, Jet2 (fun t => g t i) (a i) (b i) (c i)) :
    MatJet2 (fun t => v * diagonal (fun i => ((g t i : ℝ) : 𝕜)) * vᴴ)
      (v * diagonal (fun i => ((a i : ℝ) : 𝕜)) * vᴴ) (v * diagonal (fun i => ((b i : ℝ) : 𝕜)) * vᴴ)
      (v * diagonal (fun i => ((c i : ℝ) : 𝕜)) * vᴴ) := by
  have hd : MatJet2 (fun t => diagonal (fun i => ((g t i : ℝ) : 𝕜)))
      (diagonal fun i => ((a i : ℝ) : 𝕜)) (diagonal fun i => ((b i : ℝ) : 𝕜))
      (diagonal fun i => ((c i : ℝ) : 𝕜)) := by
    intro i j
    by_cases hij : i = j
    · subst hij
      simp only [diagonal_apply_eq]
      exact (h i).ofReal
    · simp only [diagonal_apply_ne _ hij]
      exact Jet2.const 0
  have := ((MatJet2.const v).mul hd).mul (MatJet2.const vᴴ)
  simpa using this

theorem isEigh_one_add [Fintype m] [Fintype n] [DecidableEq n] {V : Matrix m n 𝕜} {w : n → ℝ}
    {v : Matrix n n 𝕜} (h : IsEigh (Vᴴ * V) w v) (t : ℝ) :
    IsEigh (1 + (t • V)ᴴ * (t • V)) (fun i => 1 + t ^ 2 * w i) v := by
  refine ⟨h.orth, ?_⟩
  have e : (diagonal fun i => ((1 + t ^ 2 * w i : ℝ) : 𝕜)) =
      1 + (t ^ 2) • diagonal fun i => (w i : 𝕜) := by
    rw [← diagonal_one, ← diagonal_smul, diagonal_add]
    congr 1; funext i
    simp [RCLike.real_smul_eq_coe_mul]
  rw [e, Matrix.mul_add, Matrix.add_mul, Matrix.mul_one, h.orth', conjTranspose_smul,
    Matrix.smul_mul, Matrix.mul_smul, smul_smul, star_trivial, ← sq, Matrix.mul_smul,
    Matrix.smul_mul, ← h.prod]

theorem isEigh_sq_smul [Fintype m] [Fintype n] [DecidableEq n] {V : Matrix m n 𝕜} {w : n → ℝ}
    {v : Matrix n n 𝕜} (h : IsEigh (Vᴴ * V) w v) (t : ℝ) :
    IsEigh ((t • V)ᴴ * (t • V)) (fun i => t ^ 2 * w i) v := by
  refine ⟨h.orth, ?_⟩
  have e : (diagonal fun i => ((t ^ 2 * w i : ℝ) : 𝕜)) =
      (t ^ 2) • diagonal fun i => (w i : 𝕜) := by
    rw [← diagonal_smul]
    congr 1; funext i
    simp [RCLike.real_smul_eq_coe_mul]
  rw [e, conjTranspose_smul, Matrix.smul_mul, Matrix.mul_smul, smul_smul, star_trivial, ← sq,
    Matrix.mul_smul, Matrix.smul_mul, ← h.prod]

/-- The polar factor of the line `X + t V` agrees with the geodesic to second order. -/
theorem polar_jet [Fintype m] {p : ℕ} {X V : Matrix m (Fin p) 𝕜}
    (hg : ∀ t : ℝ, (X + t • V)ᴴ * (X + t • V) = 1 + (t • V)ᴴ * (t • V))
    {u : ℝ → Matrix m (Fin p) 𝕜} {s : ℝ → Fin p → ℝ} {vt : ℝ → Matrix (Fin p) (Fin p) 𝕜}
    (h : ∀ t : ℝ, IsSVD (X + t • V) (u t) (s t) (vt t)) :
    MatJet2 (fun t => u t * vt t) X V (-(X * (Vᴴ * V))) := by
  obtain ⟨w, v, hE⟩ := exists_isEigh (isHermitian_conjTranspose_mul_self V)
  have hw : ∀ i, 0 ≤ w i := fun i => by
    rw [gram_eigen_nonneg hE i]; exact Finset.sum_nonneg fun _ _ => sq_nonneg _
  have e : ∀ t : ℝ, u t * vt t = (X + t • V) *
      (v * diagonal (fun i => (((Real.sqrt (1 + t ^ 2 * w i))⁻¹ : ℝ) : 𝕜)) * vᴴ) := by
    intro t
    have hE' := isEigh_one_add hE t
    rw [← hg t] at hE'
    have hpos : ∀ i, 0 < 1 + t ^ 2 * w i := fun i => by
      have := mul_nonneg (sq_nonneg t) (hw i); linarith
    have hs : ∀ i, s t i ≠ 0 := by
      intro i h0
      have := (h t).any.gram.eigenvalue_pos (hE'.posDef hpos) i
      simp [h0] at this
    have h1 := (h t).any.map_eq (f := fun x => if x = 0 then 0 else 1) (if_pos rfl)
    rw [(h t).any.gram.spectral_unique hE'] at h1
    simp only [hs, if_false, RCLike.ofReal_one, diagonal_one, Matrix.mul_one] at h1
    rw [h1, spectral]
    congr 4
    funext i
    have := (Real.sqrt_pos.mpr (hpos i)).ne'
    simp [this]
  have hj := matJet_diag v fun i => jet_inv_sqrt (hw i)
  refine (((MatJet2.line X V).mul hj).congr e).congr_jet ?_ ?_ ?_
  · simp [hE.orth']
  · simp [hE.orth']
  · have : (v * diagonal (fun i => ((-w i : ℝ) : 𝕜)) * vᴴ) = -(Vᴴ * V) := by
      rw [hE.prod]
      simp only [RCLike.ofReal_neg]
      rw [← Matrix.neg_mul, ← Matrix.mul_neg, diagonal_neg]
    rw [this]
    simp

/-- The exponential of the Grassmann manifold to second order. -/
theorem grassmann_jet [Fintype m] {p : ℕ} {X Z : Matrix m (Fin p) 𝕜} {E : ℝ → Matrix m (Fin p) 𝕜}
    {u : ℝ → Matrix m (Fin p) 𝕜} {s : ℝ → Fin p → ℝ} {vt : ℝ → Matrix (Fin p) (Fin p) 𝕜}
    (h : ∀ t : ℝ, IsSVD (t • Z) (u t) (s t) (vt t))
    (hE : ∀ t, E t = X * ((vt t)ᴴ * diagonal (fun i => ((Real.cos (s t i) : ℝ) : 𝕜)) * vt t) +
      u t * diagonal (fun i => ((Real.sin (s t i) : ℝ) : 𝕜)) * vt t) :
    MatJet2 E X Z (-(X * (Zᴴ * Z))) := by
  obtain ⟨w, v, hW⟩ := exists_isEigh (isHermitian_conjTranspose_mul_self Z)
  have hw : ∀ i, 0 ≤ w i := fun i => by
    rw [gram_eigen_nonneg hW i]; exact Finset.sum_nonneg fun _ _ => sq_nonneg _
  have hZv : ∀ (j : m) (i : Fin p), w i = 0 → (Z * v) j i = 0 := by
    intro j i hi
    have h1 := gram_eigen_nonneg hW i
    rw [hi] at h1
    have h2 := (Finset.sum_eq_zero_iff_of_nonneg fun _ _ => sq_nonneg _).mp h1.symm j
      (Finset.mem_univ j)
    simpa using h2
  have e : ∀ t : ℝ, E t =
      X * (v * diagonal (fun i => ((Real.cos (t * Real.sqrt (w i)) : ℝ) : 𝕜)) * vᴴ) +
        Z * (v * diagonal (fun i => ((Real.sinc (t * Real.sqrt (w i)) * t : ℝ) : 𝕜)) * vᴴ) := by
    intro t
    have hW' := isEigh_sq_smul hW t
    have hsq : ∀ i, Real.sqrt (t ^ 2 * w i) = |t| * Real.sqrt (w i) := fun i => by
      rw [Real.sqrt_mul (sq_nonneg t), Real.sqrt_sq_eq_abs]
    rw [hE t]
    congr 1
    · congr 1
      have := (h t).any.gram.spectral_unique hW' fun x => Real.cos (Real.sqrt x)
      simp only [spectral, conjTranspose_conjTranspose, Real.sqrt_sq ((h t).nonneg _)] at this
      rw [this]
      congr 3
      funext i
      rw [hsq]
      rcases abs_choice t with ht | ht <;> rw [ht]
      rw [neg_mul, Real.cos_neg]
    · have h1 := (h t).any.map_eq (f := Real.sin) Real.sin_zero
      rw [(h t).any.gram.spectral_unique hW'] at h1
      rw [h1, spectral, ← Matrix.mul_assoc, ← Matrix.mul_assoc, ← Matrix.mul_assoc,
        ← Matrix.mul_assoc]
      congr 1
      ext j i
      rw [Matrix.mul_diagonal, Matrix.mul_diagonal, Matrix.smul_mul, Matrix.smul_apply]
      by_cases hi : w i = 0
      · rw [hZv j i hi]; simp
      by_cases ht : t = 0
      · subst ht; simp
      have hr : Real.sqrt (w i) ≠ 0 := by
        rw [Real.sqrt_ne_zero (hw i)]; exact hi
      have hsc : Real.sin (|t| * Real.sqrt (w i)) / (|t| * Real.sqrt (w i)) =
          Real.sinc (t * Real.sqrt (w i)) := by
        have ht' : t * Real.sqrt (w i) ≠ 0 := mul_ne_zero ht hr
        rw [Real.sinc_of_ne_zero ht']
        rcases abs_choice t with ha | ha <;> rw [ha]
        rw [neg_mul, Real.sin_neg, neg_div_neg_eq]
      rw [hsq, hsc, RCLike.ofReal_mul, RCLike.real_smul_eq_coe_mul]
      ring
  have hc := matJet_diag v fun i => jet_cos (Real.sqrt (w i))
  have hs := matJet_diag v fun i => jet_sinc (Real.sqrt (w i))
  refine ((((MatJet2.const X).mul hc).add ((MatJet2.const Z).mul hs)).congr e).congr_jet ?_ ?_ ?_
  · simp [hW.orth']
  · simp [hW.orth']
  · have : (v * diagonal (fun i => ((-Real.sqrt (w i) ^ 2 : ℝ) : 𝕜)) * vᴴ) = -(Zᴴ * Z) := by
      rw [hW.prod]
      simp only [Real.sq_sqrt (hw _), RCLike.ofReal_neg]
      rw [← Matrix.neg_mul, ← Matrix.mul_neg, diagonal_neg]
    rw [this]
    simp

/-- Twice the strictly upper triangle plus the diagonal. -/
def upperTwice {p : ℕ} (S : Matrix (Fin p) (Fin p) 𝕜) : Matrix (Fin p) (Fin p) 𝕜 :=
  of fun i j => if i < j then 2 * S i j else if i = j then S i j else 0

/-- The triangular factor of the line `X + t V`. -/
theorem triangular_jet [Fintype m] {p : ℕ} {V : Matrix m (Fin p) 𝕜}
    {R : ℝ → Matrix (Fin p) (Fin p) 𝕜}
    (hup : ∀ t (i j : Fin p), (j : ℕ) < (i : ℕ) → R t i j = 0)
    (hd : ∀ t i, ∃ d : ℝ, 0 ≤ d ∧ R t i i = (d : 𝕜))
    (hR : ∀ t : ℝ, (R t)ᴴ * R t = 1 + (t • V)ᴴ * (t • V)) :
    (∀ t i j, ‖(R t - 1) i j‖ ≤ 2 * p * trDot V V * t ^ 2) ∧
      MatJet2 R 1 0 (upperTwice (Vᴴ * V)) := by
  have hn : ∀ t : ℝ, trDot (t • V) (t • V) = trDot V V * t ^ 2 := by
    intro t
    rw [trDot_inner.smul_left, trDot_inner.smul_right]; ring
  have hU : ∀ t i j, ‖(R t - 1) i j‖ ≤ 2 * p * trDot V V * t ^ 2 := by
    intro t i j
    have hq : IsQR (R t) 1 (R t) := ⟨by simp, Matrix.one_mul _, hup t⟩
    have := qr_close hq (hd t) (hR t) i j
    rw [hn, norm_sub_rev] at this
    rw [Matrix.sub_apply]
    linarith
  refine ⟨hU, ?_⟩
  have hE : ∀ t i j, (R t - 1) i j + star ((R t - 1) j i) =
      (t ^ 2) • (Vᴴ * V) i j - ((R t - 1)ᴴ * (R t - 1) : Matrix (Fin p) (Fin p) 𝕜) i j := by
    intro t i j
    have h1 : (R t - 1) + (R t - 1)ᴴ = (t ^ 2) • (Vᴴ * V) - (R t - 1)ᴴ * (R t - 1) := by
      have h2 := hR t
      rw [conjTranspose_smul, Matrix.smul_mul, Matrix.mul_smul, smul_smul, star_trivial,
        ← sq] at h2
      rw [conjTranspose_sub, conjTranspose_one, Matrix.sub_mul, Matrix.mul_sub, h2,
        Matrix.mul_one, Matrix.one_mul]
      abel
    exact congrFun (congrFun h1 i) j
  obtain ⟨C, hC⟩ : ∃ C, C = 2 * (p : ℝ) * trDot V V := ⟨_, rfl⟩
  rw [← hC] at hU
  have hC0 : 0 ≤ C := by
    rw [hC]; have := trDot_self_nonneg V; positivity
  have hUU : ∀ t i j, ‖((R t - 1)ᴴ * (R t - 1) : Matrix (Fin p) (Fin p) 𝕜) i j‖ ≤ p * C ^ 2 * |t| ^ 4 := by
    intro t i j
    rw [mul_apply]
    calc ‖∑ k, (R t - 1)ᴴ i k * (R t - 1) k j‖ ≤ ∑ k, ‖(R t - 1)ᴴ i k * (R t - 1) k j‖ :=
          norm_sum_le _ _
      _ ≤ ∑ _k : Fin p, C ^ 2 * |t| ^ 4 := Finset.sum_le_sum fun k _ => by
          rw [norm_mul, conjTranspose_apply, norm_star]
          calc ‖(R t - 1) k i‖ * ‖(R t - 1) k j‖ ≤ (C * t ^ 2) * (C * t ^ 2) :=
                mul_le_mul (hU t k i) (hU t k j) (norm_nonneg _)
                  (mul_nonneg hC0 (sq_nonneg t))
            _ = C ^ 2 * |t| ^ 4 := by
                have : |t| ^ 4 = (t ^ 2) ^ 2 := by rw [← sq_abs t]; ring
                rw [this]; ring
      _ = _ := by simp; ring
  intro i j
  rcases lt_trichotomy i j with hij | hij | hij
  · refine Jet2.of_bound (C := p * C ^ 2) (k := 4) (by norm_num) (Eventually.of_forall fun t => ?_)
    have h1 := hE t i j
    have h2 : (R t - 1) j i = 0 := by
      rw [Matrix.sub_apply, hup t j i hij, one_apply_ne hij.ne', sub_zero]
    have h3 : (R t - 1) i j = R t i j := by
      rw [Matrix.sub_apply, one_apply_ne hij.ne, sub_zero]
    rw [h2, star_zero, add_zero, h3] at h1
    have h4 : R t i j - ((1 : Matrix (Fin p) (Fin p) 𝕜) i j + t • (0 : Matrix (Fin p) (Fin p) 𝕜) i j +
        (t ^ 2 / 2) • upperTwice (Vᴴ * V) i j) = -((R t - 1)ᴴ * (R t - 1) : Matrix (Fin p) (Fin p) 𝕜) i j := by
      have e : upperTwice (Vᴴ * V) i j = (2 : ℝ) • (Vᴴ * V) i j := by
        rw [two_smul, ← two_mul]
        simp [upperTwice, hij]
      rw [h1, e, smul_smul, one_apply_ne hij.ne, Matrix.zero_apply, smul_zero, zero_add]
      module
    rw [h4, norm_neg]
    exact hUU t i j
  · subst hij
    refine Jet2.of_bound (C := p * C ^ 2) (k := 4) (by norm_num) (Eventually.of_forall fun t => ?_)
    have h1 := hE t i i
    obtain ⟨d, -, hd⟩ := hd t i
    have h2 : star ((R t - 1) i i) = (R t - 1) i i := by
      rw [Matrix.sub_apply, hd, one_apply_eq, star_sub, star_one, RCLike.star_def,
        RCLike.conj_ofReal]
    rw [h2] at h1
    have h4 : R t i i - ((1 : Matrix (Fin p) (Fin p) 𝕜) i i + t • (0 : Matrix (Fin p) (Fin p) 𝕜) i i +
        (t ^ 2 / 2) • upperTwice (Vᴴ * V) i i) =
        -((1 / 2 : ℝ) • ((R t - 1)ᴴ * (R t - 1) : Matrix (Fin p) (Fin p) 𝕜) i i) := by
      have e : upperTwice (Vᴴ * V) i i = (Vᴴ * V) i i := by simp [upperTwice]
      have h5 : (R t - 1) i i = R t i i - (1 : Matrix (Fin p) (Fin p) 𝕜) i i := rfl
      have h6 : R t i i - (1 : Matrix (Fin p) (Fin p) 𝕜) i i =
          (1 / 2 : ℝ) • ((t ^ 2) • (Vᴴ * V) i i - ((R t - 1)ᴴ * (R t - 1) : Matrix (Fin p) (Fin p) 𝕜) i i) := by
        rw [← h1, ← h5]; module
      rw [e, Matrix.zero_apply, smul_zero, add_zero, ← sub_sub, h6]
      module
    rw [h4, norm_neg, norm_smul]
    have := hUU t i i
    have h0 := norm_nonneg (((R t - 1)ᴴ * (R t - 1) : Matrix (Fin p) (Fin p) 𝕜) i i)
    rw [Real.norm_eq_abs, abs_of_pos (by norm_num : (0 : ℝ) < 1 / 2)]
    linarith
  · refine (Jet2.const (0 : 𝕜)).congr (Eventually.of_forall fun t => hup t i j hij) |>.congr_jet
      ?_ rfl ?_
    · rw [one_apply_ne hij.ne']
    · simp [upperTwice, hij.not_gt, hij.ne']

/-- The orthonormal factor of the line `X + t V`. -/
theorem qr_jet [Fintype m] {p : ℕ} {X V : Matrix m (Fin p) 𝕜}
    (hg : ∀ t : ℝ, (X + t • V)ᴴ * (X + t • V) = 1 + (t • V)ᴴ * (t • V))
    {q : ℝ → Matrix m (Fin p) 𝕜} {R : ℝ → Matrix (Fin p) (Fin p) 𝕜}
    (h : ∀ t : ℝ, IsQR (X + t • V) (q t) (R t))
    (hd : ∀ t i, ∃ d : ℝ, 0 ≤ d ∧ R t i i = (d : 𝕜)) :
    MatJet2 q X V (-(X * upperTwice (Vᴴ * V))) := by
  have hR : ∀ t : ℝ, (R t)ᴴ * R t = 1 + (t • V)ᴴ * (t • V) := fun t => by
    rw [← hg, ← (h t).prod, conjTranspose_mul, Matrix.mul_assoc, ← Matrix.mul_assoc _ (q t),
      (h t).orth, Matrix.one_mul]
  obtain ⟨hU, hj⟩ := triangular_jet (fun t => (h t).upper) hd hR
  have hn : ∀ t : ℝ, trDot (t • V) (t • V) = trDot V V * t ^ 2 := by
    intro t
    rw [trDot_inner.smul_left, trDot_inner.smul_right]; ring
  obtain ⟨C, hC⟩ : ∃ C, C = 2 * (p : ℝ) * trDot V V := ⟨_, rfl⟩
  have hC0 : 0 ≤ C := by
    rw [hC]; have := trDot_self_nonneg V; positivity
  have hq : ∀ t i j, ‖(q t - (X + t • V)) i j‖ ≤ C * t ^ 2 := by
    intro t i j
    have := qr_close (h t) (hd t) (hg t) i j
    rw [hn] at this
    rw [Matrix.sub_apply, hC]
    linarith
  rw [← hC] at hU
  have h1 : MatJet2 (fun t => (q t - (X + t • V)) * (R t - 1)) 0 0 0 := by
    intro i j
    refine Jet2.of_bound (C := p * C ^ 2) (k := 4) (by norm_num) (Eventually.of_forall fun t => ?_)
    simp only [Matrix.zero_apply, smul_zero, add_zero, sub_zero]
    rw [mul_apply]
    calc ‖∑ k, (q t - (X + t • V)) i k * (R t - 1) k j‖
        ≤ ∑ k, ‖(q t - (X + t • V)) i k * (R t - 1) k j‖ := norm_sum_le _ _
      _ ≤ ∑ _k : Fin p, C ^ 2 * |t| ^ 4 := Finset.sum_le_sum fun k _ => by
          rw [norm_mul]
          calc ‖(q t - (X + t • V)) i k‖ * ‖(R t - 1) k j‖ ≤ (C * t ^ 2) * (C * t ^ 2) :=
                mul_le_mul (hq t i k) (hU t k j) (norm_nonneg _)
                  (mul_nonneg hC0 (sq_nonneg t))
            _ = C ^ 2 * |t| ^ 4 := by
                have : |t| ^ 4 = (t ^ 2) ^ 2 := by rw [← sq_abs t]; ring
                rw [this]; ring
      _ = _ := by simp; ring
  have h2 : MatJet2 (fun t => R t - 1) 0 0 (upperTwice (Vᴴ * V)) := by
    intro i j
    have := (hj i j).sub (Jet2.const ((1 : Matrix (Fin p) (Fin p) 𝕜) i j))
    simpa using this
  have h3 := (MatJet2.line X V).mul h2
  have e : ∀ t, q t = (X + t • V) - (q t - (X + t • V)) * (R t - 1) - (X + t • V) * (R t - 1) := by
    intro t
    have : q t * R t = X + t • V := (h t).prod
    rw [sub_sub, ← Matrix.add_mul, sub_add_cancel, Matrix.mul_sub, this, Matrix.mul_one]
    abel
  intro i j
  have h4 := (((MatJet2.line X V) i j).sub (h1 i j)).sub (h3 i j)
  refine (h4.congr (Eventually.of_forall fun t => ?_)).congr_jet ?_ ?_ ?_
  · conv_lhs => rw [e t]
    rfl
  · simp
  · simp
  · simp

end Verif.Geo
