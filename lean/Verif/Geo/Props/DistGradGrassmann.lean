/-
The logarithm and the gradient of half the squared distance (C121): Grassmann manifolds.
-/
import Verif.Geo.Lemmas.TraceDeriv
import Verif.Geo.Props.Grassmann
import Mathlib.Analysis.SpecialFunctions.Trigonometric.InverseDeriv

namespace Verif.Geo
open scoped BigOperators Topology
open Matrix Filter

/-! ### Angles -/

/-- `θ / tan θ` in terms of `tan² θ`. -/
noncomputable def angleRatio (y : ℝ) : ℝ := if y = 0 then 1 else Real.arctan (√y) / √y

/-- The derivative of half the squared angle in terms of the squared cosine. -/
noncomputable def cosSlope (x : ℝ) : ℝ := -(angleRatio (1 / x - 1) / (2 * x))

theorem angleRatio_mul {s : ℝ} (hs : 0 ≤ s) : s * angleRatio (s ^ 2) = Real.arctan s := by
  unfold angleRatio
  split_ifs with h
  · rw [pow_eq_zero_iff two_ne_zero] at h
    simp [h]
  · rw [Real.sqrt_sq hs]
    have : s ≠ 0 := fun h' => h (by rw [h']; norm_num)
    field_simp

theorem cosSlope_eq {b : ℝ} (h0 : 0 < b) (h1 : b < 1) :
    cosSlope b = -(Real.arccos (√b) / (2 * √b * √(1 - b))) := by
  have hb : √b ≠ 0 := Real.sqrt_ne_zero'.2 h0
  have hb1 : √(1 - b) ≠ 0 := Real.sqrt_ne_zero'.2 (by linarith)
  have hy : (1 : ℝ) / b - 1 = (1 - b) / b := by field_simp
  have hne : (1 : ℝ) / b - 1 ≠ 0 := by
    rw [hy]; exact div_ne_zero (by linarith) h0.ne'
  have hsq : √(1 / b - 1) = √(1 - b) / √b := by rw [hy, Real.sqrt_div (by linarith)]
  have harc : Real.arctan (√(1 / b - 1)) = Real.arccos (√b) := by
    rw [Real.arccos_eq_arctan (Real.sqrt_pos.2 h0), hsq, Real.sq_sqrt h0.le]
  rw [cosSlope, angleRatio, if_neg hne, harc, hsq]
  congr 1
  have hbb := Real.mul_self_sqrt h0.le
  rw [div_div, div_eq_div_iff (by positivity) (by positivity)]
  have : √(1 - b) / √b * (2 * b) = 2 * √b * √(1 - b) := by
    rw [div_mul_eq_mul_div, div_eq_iff hb]
    linear_combination (-2 * √(1 - b)) * hbb
  rw [this]

theorem cosSlope_one : cosSlope 1 = -(1 / 2) := by
  simp [cosSlope, angleRatio]

/-- The linear model of half the squared angle in terms of the squared cosine. -/
theorem arccos_sq_quad {a : ℝ} (h0 : 0 < a) (h1 : a ≤ 1) : ∃ C, ∀ᶠ b in 𝓝[Set.Icc 0 1] a,
    |Real.arccos (√b) ^ 2 / 2 - Real.arccos (√a) ^ 2 / 2 - cosSlope a * (b - a)| ≤
      C * (b - a) ^ 2 := by
  rcases h1.lt_or_eq with h1 | rfl
  · have hder : ∀ b : ℝ, 0 < b → b < 1 → HasDerivAt (fun b => Real.arccos (√b))
        (-(1 / √(1 - √b ^ 2)) * (1 / (2 * √b))) b := by
      intro b hb0 hb1
      have hs1 : √b < 1 := by
        rw [Real.sqrt_lt' one_pos]; linarith
      have hs0 := Real.sqrt_nonneg b
      exact (Real.hasDerivAt_arccos (by linarith) hs1.ne).comp b (Real.hasDerivAt_sqrt hb0.ne')
    have hev : ∀ᶠ b in 𝓝 a, 0 < b ∧ b < 1 :=
      (eventually_gt_nhds h0).and (eventually_lt_nhds h1)
    have hsa : √a ≠ 0 := Real.sqrt_ne_zero'.2 h0
    have hsa1 : √(1 - a) ≠ 0 := Real.sqrt_ne_zero'.2 (by linarith)
    have hdd : DifferentiableAt ℝ (fun b : ℝ => -(Real.arccos (√b) / (2 * √b * √(1 - b)))) a := by
      have d1 := (hder a h0 h1).differentiableAt
      have d2 : DifferentiableAt ℝ (fun b : ℝ => √b) a := (Real.hasDerivAt_sqrt h0.ne').differentiableAt
      have d3 : DifferentiableAt ℝ (fun b : ℝ => √(1 - b)) a :=
        ((differentiableAt_const (1 : ℝ)).sub differentiableAt_id).sqrt (by simp; linarith)
      exact (d1.div ((d2.const_mul 2).mul d3) (by
        simp only [Pi.mul_apply]
        exact mul_ne_zero (mul_ne_zero two_ne_zero hsa) hsa1)).neg
    obtain ⟨C, hC⟩ := local_quad (f := fun b => Real.arccos (√b) ^ 2 / 2)
      (f' := fun b => -(Real.arccos (√b) / (2 * √b * √(1 - b)))) (a := a) (by
        filter_upwards [hev] with b hb
        refine (((hder b hb.1 hb.2).fun_pow 2).div_const 2).congr_deriv ?_
        rw [Real.sq_sqrt hb.1.le]
        have := Real.sqrt_ne_zero'.2 hb.1
        have : √(1 - b) ≠ 0 := Real.sqrt_ne_zero'.2 (by linarith [hb.2])
        push_cast
        field_simp) hdd.hasDerivAt
    refine ⟨C, ?_⟩
    rw [cosSlope_eq h0 h1]
    exact hC.filter_mono nhdsWithin_le_nhds
  · refine ⟨(Real.pi / 2) ^ 4, ?_⟩
    filter_upwards [self_mem_nhdsWithin] with b hb
    obtain ⟨hb0, hb1⟩ := hb
    rw [cosSlope_one, Real.sqrt_one, Real.arccos_one]
    obtain ⟨θ, hθ⟩ : ∃ θ, θ = Real.arccos (√b) := ⟨_, rfl⟩
    rw [← hθ]
    have hθ0 : 0 ≤ θ := hθ ▸ Real.arccos_nonneg _
    have hθ1 : θ ≤ Real.pi / 2 := by rw [hθ, Real.arccos_le_pi_div_two]; exact Real.sqrt_nonneg _
    have hcos : Real.cos θ = √b := by
      rw [hθ, Real.cos_arccos (by linarith [Real.sqrt_nonneg b]) (by rwa [Real.sqrt_le_one])]
    have hsin : Real.sin θ ^ 2 = 1 - b := by
      rw [Real.sin_sq, hcos, Real.sq_sqrt hb0]
    have hJ := Real.mul_le_sin hθ0 hθ1
    have hle : θ ≤ Real.pi / 2 * Real.sin θ := by
      have := mul_le_mul_of_nonneg_left hJ (by positivity : (0 : ℝ) ≤ Real.pi / 2)
      have e : Real.pi / 2 * (2 / Real.pi * θ) = θ := by field_simp
      linarith
    have hsinle := Real.sin_le hθ0
    have hcube : θ - θ ^ 3 ≤ Real.sin θ := by
      rcases hθ0.eq_or_lt with h | h
      · rw [← h]; simp
      · have := Real.sin_gt_sub_cube h
        have : 0 ≤ θ ^ 3 := by positivity
        linarith
    have hsin0 : 0 ≤ Real.sin θ := Real.sin_nonneg_of_nonneg_of_le_pi hθ0 (by linarith [Real.pi_pos])
    have h4 : θ ^ 4 ≤ (Real.pi / 2) ^ 4 * (Real.sin θ ^ 2) ^ 2 := by
      have := pow_le_pow_left₀ hθ0 hle 4
      calc θ ^ 4 ≤ (Real.pi / 2 * Real.sin θ) ^ 4 := this
        _ = _ := by ring
    have hdiff : θ ^ 2 - Real.sin θ ^ 2 ≤ 2 * θ ^ 4 := by
      have : (θ - Real.sin θ) * (θ + Real.sin θ) ≤ θ ^ 3 * (2 * θ) :=
        mul_le_mul (by linarith) (by linarith) (by linarith) (by positivity)
      nlinarith
    have hdiff0 : 0 ≤ θ ^ 2 - Real.sin θ ^ 2 := by nlinarith
    have e : θ ^ 2 / 2 - 0 ^ 2 / 2 - -(1 / 2) * (b - 1) = (θ ^ 2 - Real.sin θ ^ 2) / 2 := by
      rw [hsin]; ring
    rw [e, abs_of_nonneg (by linarith)]
    have e2 : (b - 1) ^ 2 = (Real.sin θ ^ 2) ^ 2 := by rw [hsin]; ring
    rw [e2]
    linarith

/-! ### C121 -/

section
variable {κ n : Type*} [Fintype κ] [Fintype n] {p : ℕ} {𝕜 : Type*} [RCLike 𝕜]

omit [Fintype κ] in
theorem IsSVDAny.map_eq_of_mul {A u : Matrix n (Fin p) 𝕜} {s : Fin p → ℝ}
    {vt : Matrix (Fin p) (Fin p) 𝕜} (h : IsSVDAny A u s vt) {f g : ℝ → ℝ}
    (hfg : ∀ s, 0 ≤ s → s * g (s ^ 2) = f s) :
    u * diagonal (fun i => ((f (s i) : ℝ) : 𝕜)) * vt =
      A * spectral g (fun i => s i ^ 2) vtᴴ := by
  rw [spectral, conjTranspose_conjTranspose]
  conv_rhs => rw [h.prod]
  calc u * diagonal (fun i => ((f (s i) : ℝ) : 𝕜)) * vt
      = u * (diagonal (fun i => ((s i : ℝ) : 𝕜)) *
          diagonal (fun i => ((g (s i ^ 2) : ℝ) : 𝕜))) * vt := by
        rw [diagonal_mul_diagonal]
        congr 3
        funext i
        rw [← RCLike.ofReal_mul, hfg _ (h.nonneg i)]
    _ = u * diagonal (fun i => ((s i : ℝ) : 𝕜)) * (vt * vtᴴ) *
          diagonal (fun i => ((g (s i ^ 2) : ℝ) : 𝕜)) * vt := by
        rw [h.orthV, Matrix.mul_one]; simp only [Matrix.mul_assoc]
    _ = _ := by simp only [Matrix.mul_assoc]

omit [Fintype κ] in
/-- The logarithm in terms of the principal angles. -/
theorem grLog_eq {X Y N u' : Matrix n (Fin p) 𝕜} {u vt vt' : Matrix (Fin p) (Fin p) 𝕜}
    {s s' : Fin p → ℝ} (hX : Xᴴ * X = 1) (hY : Yᴴ * Y = 1) (hs : IsSVDAny (Xᴴ * Y) u s vt)
    (hpos : ∀ i, 0 < s i) (hN : N * (Xᴴ * Y) = Y - X * (Xᴴ * Y)) (hs' : IsSVDAny N u' s' vt') :
    u' * diagonal (fun i => ((Real.arctan (s' i) : ℝ) : 𝕜)) * vt' =
      Y * ((Xᴴ * Y)ᴴ * spectral (fun x => -2 * cosSlope x) (fun i => s i ^ 2) u) -
        X * spectral (fun x => angleRatio (1 / x - 1)) (fun i => s i ^ 2) u := by
  obtain ⟨M, hM⟩ : ∃ M, M = Xᴴ * Y := ⟨_, rfl⟩
  rw [← hM] at hs hN ⊢
  have hu : uᴴ * u = 1 := hs.orthU
  have hu' : u * uᴴ = 1 := mul_eq_one_comm.1 hu
  have hK : M * Mᴴ = spectral (fun x => x) (fun i => s i ^ 2) u := by
    have := hs.gram'.gram.prod
    rw [conjTranspose_conjTranspose] at this
    rw [this, spectral, conjTranspose_conjTranspose]
  obtain ⟨J, hJ⟩ : ∃ J : Matrix (Fin p) (Fin p) 𝕜,
    J = spectral (fun x => 1 / x) (fun i => s i ^ 2) u := ⟨_, rfl⟩
  have hKJ : M * Mᴴ * J = 1 := by
    rw [hK, hJ, spectral_mul _ _ hu]
    exact spectral_one _ hu' fun i => mul_one_div_cancel (pow_pos (hpos i) 2).ne'
  have hJK : J * (M * Mᴴ) = 1 := mul_eq_one_comm.1 hKJ
  have hNe : N = Y * (Mᴴ * J) - X := by
    calc N = N * (M * Mᴴ * J) := by rw [hKJ, Matrix.mul_one]
      _ = N * M * (Mᴴ * J) := by simp only [Matrix.mul_assoc]
      _ = Y * (Mᴴ * J) - X * (M * Mᴴ * J) := by
        rw [hN, Matrix.sub_mul]; simp only [Matrix.mul_assoc]
      _ = _ := by rw [hKJ, Matrix.mul_one]
  have hgram : Nᴴ * N = J - 1 := by
    have h1 : (N * M)ᴴ * (N * M) = 1 - Mᴴ * M := by
      rw [hN, hM]; exact residual_gram hX hY
    calc Nᴴ * N = J * (M * Mᴴ) * (Nᴴ * N) * (M * Mᴴ * J) := by
          rw [hJK, hKJ, Matrix.one_mul, Matrix.mul_one]
      _ = J * M * ((N * M)ᴴ * (N * M)) * Mᴴ * J := by
        rw [conjTranspose_mul]; simp only [Matrix.mul_assoc]
      _ = J * (M * Mᴴ) * J - J * (M * Mᴴ) * (M * Mᴴ * J) := by
        rw [h1, Matrix.mul_sub, Matrix.sub_mul, Matrix.sub_mul, Matrix.mul_one]
        simp only [Matrix.mul_assoc]
      _ = _ := by rw [hJK, hKJ, Matrix.one_mul, Matrix.one_mul]
  have heigh : IsEigh (Nᴴ * N) (fun i => 1 / s i ^ 2 - 1) u := by
    refine ⟨hu, ?_⟩
    have h1 : (1 : Matrix (Fin p) (Fin p) 𝕜) = u * diagonal (fun _ => (1 : 𝕜)) * uᴴ := by
      rw [diagonal_one, Matrix.mul_one, hu']
    rw [hgram, hJ, spectral]
    conv_lhs => rw [h1]
    rw [← Matrix.sub_mul, ← Matrix.mul_sub, diagonal_sub]
    congr 3
    funext i
    push_cast
    rfl
  rw [hs'.map_eq_of_mul (f := Real.arctan) (g := angleRatio) fun s hs => angleRatio_mul hs,
    hs'.gram.spectral_unique heigh angleRatio]
  have e1 : spectral angleRatio (fun i => 1 / s i ^ 2 - 1) u =
      spectral (fun x => angleRatio (1 / x - 1)) (fun i => s i ^ 2) u := rfl
  have e2 : J * spectral (fun x => angleRatio (1 / x - 1)) (fun i => s i ^ 2) u =
      spectral (fun x => -2 * cosSlope x) (fun i => s i ^ 2) u := by
    rw [hJ, spectral_mul _ _ hu]
    refine spectral_congr fun i => ?_
    rw [cosSlope]
    have := (pow_pos (hpos i) 2).ne'
    field_simp
  rw [e1, hNe, Matrix.sub_mul, Matrix.mul_assoc Y, Matrix.mul_assoc Mᴴ, e2]

/-- **C121** (Grassmann manifolds, real and complex): a curve of orthonormal bases through `X`. -/
theorem C121_grassmann {c : ℝ → Stack κ n (Fin p) 𝕜} {X Y V L : Stack κ n (Fin p) 𝕜}
    (hon : ∀ t, Orthonormal' (c t)) (hY : Orthonormal' Y) (hc : StackDeriv c V 0) (h0 : c 0 = X)
    (hL : IsGrLog X Y L) {δ : ℝ → ℝ} (hδ : ∀ t, IsGrDist (c t) Y (δ t)) :
    HasDerivAt (fun t => δ t ^ 2 / 2) (-cgrInner X L V) 0 := by
  have hX : Orthonormal' X := h0 ▸ hon 0
  choose u s vt hs hd using hδ
  have hM : ∀ t k, IsSVDAny ((c t k)ᴴ * Y k) (u t k) (s t k) (vt t k) := fun t k => (hs t k).any
  have hle : ∀ t k i, s t k i ≤ 1 := fun t k i =>
    cosines_le_one (orthonormal_iff.1 (hon t) k) (orthonormal_iff.1 hY k) (hM t k) i
  have hδe : ∀ t, δ t ^ 2 / 2 = ∑ k, ∑ i, Real.arccos (√(s t k i ^ 2)) ^ 2 / 2 := by
    intro t
    rw [hd t, grDist_sq, Finset.sum_div]
    refine Finset.sum_congr rfl fun k _ => ?_
    rw [Finset.sum_div]
    refine Finset.sum_congr rfl fun i _ => ?_
    rw [svdAngle, if_neg (not_lt.2 (hle t k i)), Real.sqrt_sq ((hM t k).nonneg i)]
  simp only [hδe]
  obtain ⟨bh, u', s', vt', hsol, hs', rfl⟩ := hL
  rw [cgrInner, stackDot_eq, ← Finset.sum_neg_distrib]
  refine HasDerivAt.fun_sum fun k _ => ?_
  have hXk := orthonormal_iff.1 hX k
  have hYk := orthonormal_iff.1 hY k
  have hVk : (X k)ᴴ * V k = -((X k)ᴴ * V k)ᴴ := by
    have h1 := ((stackDeriv_iff.1 hc) k).conjTranspose.mul ((stackDeriv_iff.1 hc) k)
    have h2 : MatDeriv (fun t => (c t k)ᴴ * c t k) 0 0 := by
      have : (fun t => (c t k)ᴴ * c t k) = fun _ => 1 :=
        funext fun t => orthonormal_iff.1 (hon t) k
      rw [this]
      exact MatDeriv.const _ _
    have h3 := h1.unique h2
    rw [h0] at h3
    rw [conjTranspose_mul, conjTranspose_conjTranspose, eq_neg_iff_add_eq_zero, add_comm]
    exact h3
  have hpos : ∀ i, 0 < s 0 k i := by
    intro i
    refine lt_of_le_of_ne ((hM 0 k).nonneg i) fun h => ?_
    have h1 : IsUnit ((Y k)ᴴ * X k).det := (isUnit_iff_isUnit_det _).1 (hsol k).unit
    have h2 : (Y k)ᴴ * X k = ((c 0 k)ᴴ * Y k)ᴴ := by
      rw [h0, conjTranspose_mul, conjTranspose_conjTranspose]
    rw [h2, (hM 0 k).prod, det_conjTranspose, det_mul, det_mul, det_diagonal,
      Finset.prod_eq_zero (Finset.mem_univ i) (by rw [← h, RCLike.ofReal_zero])] at h1
    simp at h1
  have hMd : MatDeriv (fun t => (c t k)ᴴ * Y k) ((V k)ᴴ * Y k) 0 := by
    refine (((stackDeriv_iff.1 hc) k).conjTranspose.mul (MatDeriv.const (Y k) 0)).congr_deriv ?_
    simp
  have hK : MatDeriv (fun t => (((c t k)ᴴ * Y k)ᴴ)ᴴ * ((c t k)ᴴ * Y k)ᴴ)
      (((V k)ᴴ * Y k) * ((X k)ᴴ * Y k)ᴴ + ((X k)ᴴ * Y k) * ((V k)ᴴ * Y k)ᴴ) 0 := by
    refine (hMd.conjTranspose.conjTranspose.mul hMd.conjTranspose).congr_deriv ?_
    simp only [conjTranspose_conjTranspose, h0]
  have key := hasDerivAt_eigh_sum hK (w := fun t i => s t k i ^ 2) (v := fun t => ((u t k)ᴴ)ᴴ)
    (fun t => (hM t k).gram'.gram) (f := fun x => Real.arccos (√x) ^ 2 / 2) (f' := cosSlope)
    (S := Set.Icc 0 1)
    (Eventually.of_forall fun t i =>
      ⟨sq_nonneg _, pow_le_one₀ ((hM t k).nonneg i) (hle t k i)⟩)
    fun i => arccos_sq_quad (pow_pos (hpos i) 2) (pow_le_one₀ ((hM 0 k).nonneg i) (hle 0 k i))
  refine key.congr_deriv ?_
  simp only [conjTranspose_conjTranspose]
  -- the logarithm
  have hM0 := hM 0 k
  rw [h0] at hM0
  have hN : (bh k)ᴴ * ((X k)ᴴ * Y k) = Y k - X k * ((X k)ᴴ * Y k) := by
    have h1 : (Y k)ᴴ * X k * bh k = (Y k)ᴴ - (Y k)ᴴ * X k * (X k)ᴴ := (hsol k).prod
    have h2 := congrArg conjTranspose h1
    rw [conjTranspose_mul, conjTranspose_sub, conjTranspose_mul _ (X k)ᴴ, conjTranspose_mul,
      conjTranspose_conjTranspose, conjTranspose_conjTranspose] at h2
    exact h2
  have hlog := grLog_eq hXk hYk hM0 hpos hN (hs' k).any
  rw [← scaleCols_eq] at hlog
  change _ = -trDot (scaleCols (u' k) (fun i => Real.arctan (s' k i)) * vt' k) (V k)
  rw [hlog]
  obtain ⟨P, hP⟩ : ∃ P : Matrix (Fin p) (Fin p) 𝕜,
    P = spectral cosSlope (fun i => s 0 k i ^ 2) (u 0 k) := ⟨_, rfl⟩
  have hPh : Pᴴ = P := by rw [hP]; exact spectral_conjTranspose _
  have hP2 : spectral (fun x => -2 * cosSlope x) (fun i => s 0 k i ^ 2) (u 0 k) = (-2 : ℝ) • P := by
    rw [hP, spectral, spectral, ← Matrix.smul_mul, ← Matrix.mul_smul, ← diagonal_smul]
    congr 3
    funext i
    rw [Pi.smul_apply, RCLike.real_smul_eq_coe_mul, ← RCLike.ofReal_mul]
  obtain ⟨Q, hQ⟩ : ∃ Q : Matrix (Fin p) (Fin p) 𝕜, Q = spectral (fun x => angleRatio (1 / x - 1))
    (fun i => s 0 k i ^ 2) (u 0 k) := ⟨_, rfl⟩
  have hQh : Qᴴ = Q := by rw [hQ]; exact spectral_conjTranspose _
  rw [← hP, ← hQ, hP2]
  have hherm : ∀ H K : Matrix (Fin p) (Fin p) 𝕜, Hᴴ = H → trDot H Kᴴ = trDot H K := by
    intro H K hH
    rw [trDot, trDot, ← conjTranspose_mul, trace_conjTranspose, RCLike.star_def, RCLike.conj_re,
      trace_mul_comm, hH]
  have hvert : trDot (X k * Q) (V k) = 0 := by
    have h1 := hherm Q ((X k)ᴴ * V k) hQh
    have h2 : trDot Q ((X k)ᴴ * V k) = -trDot Q ((X k)ᴴ * V k)ᴴ := by
      conv_lhs => rw [hVk]
      rw [trDot_inner.neg_right]
    rw [trDot_mul_left]
    linarith
  have e1 : trDot P ((V k)ᴴ * Y k * ((X k)ᴴ * Y k)ᴴ) =
      trDot P ((X k)ᴴ * Y k * ((V k)ᴴ * Y k)ᴴ) := by
    have : (V k)ᴴ * Y k * ((X k)ᴴ * Y k)ᴴ = ((X k)ᴴ * Y k * ((V k)ᴴ * Y k)ᴴ)ᴴ := by
      rw [conjTranspose_mul ((X k)ᴴ * Y k), conjTranspose_conjTranspose]
    rw [this]
    exact hherm P _ hPh
  have e2 : trDot P ((X k)ᴴ * Y k * ((V k)ᴴ * Y k)ᴴ) =
      trDot (Y k * (((X k)ᴴ * Y k)ᴴ * P)) (V k) := by
    rw [trDot_mul_left, trDot_mul_left, conjTranspose_conjTranspose, conjTranspose_mul (V k)ᴴ,
      conjTranspose_conjTranspose]
  rw [trDot_inner.add_right, e1, e2, trDot_inner.sub_left, hvert, Matrix.mul_smul, Matrix.mul_smul,
    trDot_inner.smul_left]
  ring

end

end Verif.Geo
