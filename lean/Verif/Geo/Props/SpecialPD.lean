/-
C85, C86, C55 and C101: random points and tangent vectors of the manifolds of positive definite
matrices, and the special (determinant one) manifold.
-/
import Verif.Geo.Props.PositiveDefinite
import Mathlib.Analysis.SpecialFunctions.Pow.Deriv
import Mathlib.Analysis.Matrix.PosDef

namespace Verif.Geo
open scoped BigOperators ComplexOrder
open Matrix

/-! ### C101 -/

section
variable {κ n : Type*} {𝕜 : Type*} [RCLike 𝕜] [Fintype n] [DecidableEq n] [Fintype κ]

theorem pdNorm_normalised {P V : Stack κ n n 𝕜} (hP : PDPoint P) (hV : HermStack V) (h0 : V ≠ 0) :
    0 < pdNorm P V ∧ pdNorm P ((pdNorm P V)⁻¹ • V) = 1 := by
  obtain ⟨hin, -, hn⟩ := C81_metric P hP
  have hpos : 0 < pdNorm P V := by
    refine lt_of_le_of_ne (hn V hV).2 fun h => h0 (hin.definite V hV ?_)
    rw [← (hn V hV).1, ← h]; ring
  refine ⟨hpos, ?_⟩
  have hs := hermStack_subspace.smul (pdNorm P V)⁻¹ hV
  have h1 := (hn _ hs).1
  rw [hin.smul_left _ _ _ hV hs, hin.symm _ _ hV hs, hin.smul_left _ _ _ hV hV, ← (hn V hV).1] at h1
  have h2 : pdNorm P ((pdNorm P V)⁻¹ • V) ^ 2 = 1 := by
    rw [h1]; field_simp
  exact (pow_eq_one_iff_of_nonneg (hn _ hs).2 two_ne_zero).mp h2

/-- C101: random tangent vectors are Hermitian of norm one, for every draw with non-zero Hermitian
part. -/
theorem C101_posdef (P draw : Stack κ n n 𝕜) (hP : PDPoint P) (hd : multiherm draw ≠ 0) :
    HermStack (pdRandomTangent P draw) ∧ pdNorm P (pdRandomTangent P draw) = 1 :=
  ⟨hermStack_subspace.smul _ (multiherm_mem draw),
    (pdNorm_normalised hP (multiherm_mem draw) hd).2⟩

end

/-! ### C85 -/

section
variable {κ : Type*} {n : ℕ}

theorem hpdRandomPoint_posDef (draw : κ → Fin n → ℝ) (hd : ∀ k i, 0 ≤ draw k i)
    {a q r : Matrix (Fin n) (Fin n) ℂ} (h : IsQR a q r) : PDPoint (hpdRandomPoint draw q r) := by
  intro k
  have hq := (C51_factorisation le_rfl h).1.orth
  have he : IsEigh (hpdRandomPoint draw q r k) (fun i => 1 + draw k i) (multiqr le_rfl q r).1 := by
    refine ⟨hq, ?_⟩
    rw [hpdRandomPoint, Matrix.mul_assoc]
    congr 1
    ext i j
    rw [diagonal_mul]
    rfl
  exact he.posDef fun i => by have := hd k i; linarith

theorem re_posDef {A : Matrix (Fin n) (Fin n) ℂ} (hA : A.PosDef) : (A.map Complex.re).PosDef := by
  have hh : (A.map Complex.re).IsHermitian := by
    ext i j
    have := congrArg Complex.re (congrFun (congrFun hA.isHermitian.eq i) j)
    simpa [conjTranspose_apply] using this
  refine PosDef.of_dotProduct_mulVec_pos hh fun x hx => ?_
  have hx' : (fun i => (x i : ℂ)) ≠ 0 := fun h => hx (funext fun i => by
    have := congrFun h i
    simpa using this)
  have h1 := hA.dotProduct_mulVec_pos hx'
  have h2 := (Complex.lt_def.mp h1).1
  simp only [dotProduct, mulVec, Pi.star_apply, Complex.zero_re, Complex.re_sum, star_trivial,
    Finset.mul_sum, map_apply] at h2 ⊢
  refine h2.trans_eq (Finset.sum_congr rfl fun i _ => Finset.sum_congr rfl fun j _ => ?_)
  simp

/-- C85: random points of the symmetric, the Hermitian and the special Hermitian manifold are
positive definite; the last have determinant one.  `draw` are the uniform draws, `a` is the complex
matrix drawn and `q`, `r` whatever QR factorisation of it is returned. -/
theorem C85_random_point (draw : κ → Fin n → ℝ) (hd : ∀ k i, 0 ≤ draw k i)
    {a q r : Matrix (Fin n) (Fin n) ℂ} (h : IsQR a q r) :
    PDPoint (spdRandomPoint draw q r) ∧ PDPoint (hpdRandomPoint draw q r) :=
  ⟨fun k => re_posDef (hpdRandomPoint_posDef draw hd h k), hpdRandomPoint_posDef draw hd h⟩

/-- C85: the eigenvalues of Hermitian random points are the values drawn, between one and two. -/
theorem C85_eigenvalues (draw : κ → Fin n → ℝ) {a q r : Matrix (Fin n) (Fin n) ℂ} (h : IsQR a q r)
    (k : κ) : ∃ v, IsEigh (hpdRandomPoint draw q r k) (fun i => 1 + draw k i) v := by
  refine ⟨(multiqr le_rfl q r).1, (C51_factorisation le_rfl h).1.orth, ?_⟩
  rw [hpdRandomPoint, Matrix.mul_assoc]
  congr 1
  ext i j
  rw [diagonal_mul]
  rfl

/-! ### C86 -/

/-- Points of the special manifold. -/
def SHPDPoint (P : Stack κ (Fin n) (Fin n) ℂ) : Prop := PDPoint P ∧ ∀ k, (P k).det = 1

/-- Tangent vectors of the special manifold. -/
def SHPDTangent (P Z : Stack κ (Fin n) (Fin n) ℂ) : Prop :=
  HermStack Z ∧ ∀ k, ((P k)⁻¹ * Z k).trace = 0

theorem shpdTangent_subspace (P : Stack κ (Fin n) (Fin n) ℂ) : IsSubspace (SHPDTangent P) where
  zero := ⟨hermStack_subspace.zero, fun k => by simp⟩
  add hu hv := ⟨hermStack_subspace.add hu.1 hv.1, fun k => by
    rw [Pi.add_apply, Matrix.mul_add, trace_add, hu.2, hv.2, add_zero]⟩
  smul c _ hu := ⟨hermStack_subspace.smul c hu.1, fun k => by
    rw [Pi.smul_apply, Matrix.mul_smul, trace_smul, hu.2, smul_zero]⟩

theorem trace_herm_real {A : Matrix (Fin n) (Fin n) ℂ} (hA : Aᴴ = A) :
    A.trace = ((RCLike.re A.trace : ℝ) : ℂ) := by
  have : star A.trace = A.trace := by rw [← trace_conjTranspose, hA]
  exact (RCLike.conj_eq_iff_re.mp this).symm

theorem trace_solve_real {P Z : Matrix (Fin n) (Fin n) ℂ} (hP : P.PosDef) (hZ : Zᴴ = Z) :
    (P⁻¹ * Z).trace = ((RCLike.re (P⁻¹ * Z).trace : ℝ) : ℂ) := by
  obtain ⟨C, hC, hu⟩ := exists_factor hP
  rw [trace_solve hu hC]
  exact trace_herm_real (whiten_herm hZ)

theorem det_posDef {A : Matrix (Fin n) (Fin n) ℂ} (hA : A.PosDef) :
    0 < A.det.re ∧ A.det = (A.det.re : ℂ) := by
  have h := Complex.lt_def.mp hA.det_pos
  refine ⟨h.1, Complex.ext rfl ?_⟩
  simpa using h.2.symm

theorem unitDet_eq {A : Stack κ (Fin n) (Fin n) ℂ} {k : κ} (hA : (A k).PosDef) :
    unitDet A k = ((A k).det.re ^ (1 / (n : ℝ)))⁻¹ • A k := by
  obtain ⟨h0, h1⟩ := det_posDef hA
  have h2 : (A k).det ^ (1 / (n : ℂ)) = (((A k).det.re ^ (1 / (n : ℝ)) : ℝ) : ℂ) := by
    rw [Complex.ofReal_cpow h0.le, ← h1]
    push_cast; rfl
  rw [unitDet, h2]
  ext i j
  simp only [Matrix.smul_apply, smul_eq_mul, Complex.real_smul]
  push_cast; rfl

theorem unitDet_point {A : Stack κ (Fin n) (Fin n) ℂ} (hA : PDPoint A) : SHPDPoint (unitDet A) := by
  refine ⟨fun k => ?_, fun k => ?_⟩
  · obtain ⟨h0, -⟩ := det_posDef (hA k)
    rw [unitDet_eq (hA k)]
    exact (hA k).smul (inv_pos.mpr (Real.rpow_pos_of_pos h0 _))
  · rcases Nat.eq_zero_or_pos n with rfl | hn
    · exact det_isEmpty
    · obtain ⟨h0, h1⟩ := det_posDef (hA k)
      rw [unitDet_eq (hA k)]
      have h2 : ((A k).det.re ^ (1 / (n : ℝ))) ^ n = (A k).det.re := by
        rw [one_div]; exact Real.rpow_inv_natCast_pow h0.le hn.ne'
      have h3 : (((A k).det.re ^ (1 / (n : ℝ)))⁻¹ • A k) =
          ((((A k).det.re ^ (1 / (n : ℝ)))⁻¹ : ℝ) : ℂ) • A k := by
        ext i j; simp [Complex.real_smul]
      rw [h3, det_smul, Fintype.card_fin, ← Complex.ofReal_pow, inv_pow, h2, h1, Complex.ofReal_re,
        ← Complex.ofReal_mul, inv_mul_cancel₀ h0.ne', Complex.ofReal_one]

theorem unitDet_one {A : Stack κ (Fin n) (Fin n) ℂ} (h : ∀ k, (A k).det = 1) : unitDet A = A := by
  funext k
  rw [unitDet, h k, Complex.one_cpow, inv_one, one_smul]

/-- C85: random points of the special manifold. -/
theorem C85_special (draw : κ → Fin n → ℝ) (hd : ∀ k i, 0 ≤ draw k i)
    {a q r : Matrix (Fin n) (Fin n) ℂ} (h : IsQR a q r) : SHPDPoint (shpdRandomPoint draw q r) :=
  unitDet_point (hpdRandomPoint_posDef draw hd h)

/-- C86: `projection` is the orthogonal projection onto the tangent space, for the metric. -/
theorem C86_projection [Fintype κ] (hn : 0 < n) (P : Stack κ (Fin n) (Fin n) ℂ) (hP : PDPoint P) :
    IsOrthProj (E := Stack κ (Fin n) (Fin n) ℂ) (pdMetric P) (SHPDTangent P) (shpdProj P) := by
  have hI := pdMetric_inner hP
  refine hI.orthProj (shpdTangent_subspace P) (fun V => ?_) fun V Z hZ => ?_
  · have hV : HermStack (pdProj P V) := multiherm_mem V
    constructor
    · rw [hermStack_iff]
      intro k
      change (pdProj P V k - (1 / (n : ℝ) * RCLike.re (multisolve P (pdProj P V) k).trace) • P k)ᴴ =
        pdProj P V k - (1 / (n : ℝ) * RCLike.re (multisolve P (pdProj P V) k).trace) • P k
      rw [conjTranspose_sub, conjTranspose_smul, hV.k, (hP k).isHermitian.eq, star_trivial]
    · intro k
      change ((P k)⁻¹ * (pdProj P V k -
        (1 / (n : ℝ) * RCLike.re (multisolve P (pdProj P V) k).trace) • P k)).trace = 0
      rw [Matrix.mul_sub, Matrix.mul_smul, inv_mul' (hP k).isUnit, trace_sub, trace_smul, trace_one,
        trace_solve_real (hP k) (hV.k k), multisolve, Fintype.card_fin, Complex.real_smul]
      have : (n : ℂ) ≠ 0 := by exact_mod_cast hn.ne'
      push_cast
      field_simp
      simp
  · have h1 : V - shpdProj P V = (V - pdProj P V) + fun k =>
        (1 / (n : ℝ) * RCLike.re (multisolve P (pdProj P V) k).trace) • P k := by
      funext k
      change V k - (pdProj P V k - (1 / (n : ℝ) *
        RCLike.re (multisolve P (pdProj P V) k).trace) • P k) = V k - pdProj P V k + _
      abel
    have h2 : pdMetric P (V - pdProj P V) Z = 0 := by
      rw [hI.sub_left, (C55_posdef P hP).2.represents V hZ.1, sub_self]
    rw [h1, hI.add_left, h2, zero_add, pdMetric]
    refine Finset.sum_eq_zero fun k _ => ?_
    rw [conjTranspose_smul, (hP k).isHermitian.eq, Matrix.mul_smul, inv_mul' (hP k).isUnit,
      Matrix.smul_mul, Matrix.one_mul, trace_smul, hZ.2, smul_zero, map_zero]

/-- C86: `transport` returns tangent vectors at the target, and fixes vectors that are tangent
there. -/
theorem C86_transport [Fintype κ] (hn : 0 < n) (A B V : Stack κ (Fin n) (Fin n) ℂ)
    (hB : PDPoint B) :
    SHPDTangent B (shpdTransport A B V) ∧ (SHPDTangent B V → shpdTransport A B V = V) := by
  refine ⟨(C86_projection hn B hB).mem _, fun h => ?_⟩
  rw [shpdTransport, pdProj, multiherm_of_herm h.1, (C86_projection hn B hB).fixes h]

/-- C86: the converted gradient is a tangent vector and represents the Euclidean differential. -/
theorem C86_gradient [Fintype κ] (hn : 0 < n) (P G : Stack κ (Fin n) (Fin n) ℂ) (hP : PDPoint P) :
    SHPDTangent P (shpdE2rg P G) ∧
      ∀ V, SHPDTangent P V → pdInner P (shpdE2rg P G) V = stackDot G V := by
  have hp := C86_projection hn P hP
  refine ⟨hp.mem _, fun V hV => ?_⟩
  have hT : SHPDTangent P (shpdE2rg P G) := hp.mem _
  rw [pdInner_metric hT.1, shpdE2rg, shpdBaseE2rg, hp.represents _ hV,
    hp.represents _ hV, ← (C84_gradient P G hP).2 V hV.1,
    pdInner_metric (C84_gradient P G hP).1, pdE2rg, (C55_posdef P hP).2.represents _ hV.1]

theorem det_exp_tangent {P V : Stack κ (Fin n) (Fin n) ℂ} (hP : SHPDPoint P)
    (hV : SHPDTangent P V) (k : κ) : (pdExp P V k).det = 1 := by
  obtain ⟨C, hC, hu⟩ := exists_factor (hP.1 k)
  rw [pdExp_apply, exp_solve hu hC, det_mul, det_mul, det_exp_herm (whiten_herm (hV.1.k k)),
    ← trace_solve hu hC, hV.2 k, map_zero, Real.exp_zero, RCLike.ofReal_one, mul_one, ← det_mul, hC,
    hP.2 k]

/-- C86: `exp` of tangent vectors is a point of the manifold; the normalisation changes nothing, and
the zero vector is mapped to the point. -/
theorem C86_exp (P V : Stack κ (Fin n) (Fin n) ℂ) (hP : SHPDPoint P) (hV : SHPDTangent P V) :
    SHPDPoint (shpdExp P V) ∧ shpdExp P V = pdExp P V ∧ shpdExp P 0 = P := by
  refine ⟨unitDet_point (C82_exp P V hP.1 hV.1).1, unitDet_one (det_exp_tangent hP hV), ?_⟩
  have h0 : SHPDTangent P 0 := (shpdTangent_subspace P).zero
  have h1 : pdExp P 0 = P := (C82_exp P V hP.1 hV.1).2
  rw [shpdExp, unitDet_one (det_exp_tangent hP h0), h1]

/-- C86: `exp` and `retraction` return points of the manifold for arbitrary Hermitian matrices, and
`retraction` returns the point for the zero vector. -/
theorem C86_points (P V : Stack κ (Fin n) (Fin n) ℂ) (hP : SHPDPoint P) (hV : HermStack V) :
    SHPDPoint (shpdExp P V) ∧ SHPDPoint (shpdRetract P V) ∧ shpdRetract P 0 = P := by
  refine ⟨unitDet_point (C82_exp P V hP.1 hV).1, unitDet_point (C83_retraction P V hP.1 hV).1, ?_⟩
  have h1 : pdRetract P 0 = P := (C83_retraction P V hP.1 hV).2
  rw [shpdRetract, h1, unitDet_one hP.2]

/-- C86: the inherited `log` is a tangent vector, and inverse to `exp`. -/
theorem C86_log {A B L : Stack κ (Fin n) (Fin n) ℂ} (hA : SHPDPoint A) (hB : SHPDPoint B)
    (h : IsPdLog A B L) : SHPDTangent A L ∧ shpdExp A L = B := by
  have hL := C82_exp_log hB.1 h
  have hT : SHPDTangent A L := by
    refine ⟨hL.1, fun k => ?_⟩
    obtain ⟨C, hC, hu⟩ := exists_factor (hA.1 k)
    have h1 := congrArg det (congrFun hL.2 k)
    rw [pdExp_apply, exp_solve hu hC, det_mul, det_mul, det_exp_herm (whiten_herm (hL.1.k k)),
      mul_right_comm, ← det_mul, hC, hA.2 k, hB.2 k, one_mul, ← RCLike.ofReal_one,
      RCLike.ofReal_inj, Real.exp_eq_one_iff, ← trace_solve hu hC] at h1
    rw [trace_solve_real (hA.1 k) (hL.1.k k), h1, Complex.ofReal_zero]
  exact ⟨hT, (C86_exp A L hA hT).2.1.trans hL.2⟩

/-- C86: `log` undoes `exp`, and `dist(A, exp(A, V))` is the norm of `V`. -/
theorem C86_log_exp [Fintype κ] {A V L : Stack κ (Fin n) (Fin n) ℂ} (hA : SHPDPoint A)
    (hV : SHPDTangent A V) :
    (IsPdLog A (shpdExp A V) L → L = V) ∧
      ∀ d, IsPdDist A (shpdExp A V) d → d = pdNorm A V := by
  rw [(C86_exp A V hA hV).2.1]
  exact ⟨fun h => C82_log_exp hV.1 h, fun d h => C82_dist_exp hA.1 hV.1 h⟩

/-! ### C86: velocity of the retraction -/

theorem pdRetract_whiten {P V C : Matrix (Fin n) (Fin n) ℂ} (hu : IsUnit C) (hC : C * Cᴴ = P)
    (t : ℝ) {w : Fin n → ℝ} {v : Matrix (Fin n) (Fin n) ℂ} (he : IsEigh (whiten C V) w v) :
    P + t • V + (1 / 2 : ℝ) • (t • V * (P⁻¹ * (t • V))) =
      C * spectral (fun x => 1 + t * x + t ^ 2 * x ^ 2 / 2) w v * Cᴴ := by
  have h1 : spectral (fun x => 1 + t * x + t ^ 2 * x ^ 2 / 2) w v =
      1 + t • whiten C V + (t ^ 2 / 2 : ℝ) • (whiten C V * whiten C V) := by
    have h2 : whiten C V = spectral (fun x => x) w v := he.prod
    have h3 : (1 : Matrix (Fin n) (Fin n) ℂ) = spectral (fun _ => 1) w v := by
      rw [spectral]; simp [he.orth']
    have hadd : ∀ f g : ℝ → ℝ, spectral (fun x => f x + g x) w v =
        spectral f w v + spectral g w v := by
      intro f g
      simp only [spectral]
      rw [← Matrix.add_mul, ← Matrix.mul_add, diagonal_add]
      congr 3; funext i; push_cast; rfl
    have hsmul : ∀ (c : ℝ) (f : ℝ → ℝ), spectral (fun x => c * f x) w v =
        c • spectral f w v := by
      intro c f
      simp only [spectral]
      rw [← Matrix.smul_mul, ← Matrix.mul_smul, ← diagonal_smul]
      congr 3; funext i; rw [Pi.smul_apply, Complex.real_smul]; push_cast; rfl
    rw [h2, spectral_mul _ _ he.orth, h3, ← hsmul, ← hsmul, ← hadd, ← hadd]
    congr 1; funext x; ring
  rw [h1]
  simp only [Matrix.mul_add, Matrix.add_mul, Matrix.mul_smul, Matrix.smul_mul, Matrix.mul_one, hC,
    unwhiten hu]
  have h4 : C * (whiten C V * whiten C V) * Cᴴ = V * (P⁻¹ * V) := by
    rw [factor_inv hu hC, whiten]
    calc C * (C⁻¹ * V * (C⁻¹)ᴴ * (C⁻¹ * V * (C⁻¹)ᴴ)) * Cᴴ =
        C * C⁻¹ * V * ((C⁻¹)ᴴ * C⁻¹ * V) * ((C⁻¹)ᴴ * Cᴴ) := by simp only [Matrix.mul_assoc]
      _ = _ := by rw [mul_inv' hu, invH_mul hu, Matrix.one_mul, Matrix.mul_one]
  rw [h4, smul_smul, smul_smul]
  congr 2
  ring

/-- C86: the curve `t ↦ retraction(P, t V)` leaves the point with velocity `V`. -/
theorem C86_velocity (P V : Stack κ (Fin n) (Fin n) ℂ) (hP : SHPDPoint P) (hV : SHPDTangent P V) :
    StackDeriv (fun t : ℝ => shpdRetract P (t • V)) V 0 := by
  have hpd : ∀ t : ℝ, PDPoint (pdRetract P (t • V)) := fun t =>
    (C83_retraction P (t • V) hP.1 (hermStack_subspace.smul t hV.1)).1
  have h0 : pdRetract P ((0 : ℝ) • V) = P := by
    rw [zero_smul]; exact (C83_retraction P V hP.1 hV.1).2
  have hvel := (C83_velocity P V hP.1 hV.1).1
  rw [stackDeriv_iff] at hvel ⊢
  intro k
  obtain ⟨C, hC, hu⟩ := exists_factor (hP.1 k)
  obtain ⟨w, v, he⟩ := exists_isEigh (A := whiten C (V k)) (whiten_herm (hV.1.k k))
  have hsum : ∑ i, w i = 0 := by
    have h1 := hV.2 k
    have h2 : whiten C (V k) = spectral (fun x => x) w v := he.prod
    rw [trace_solve hu hC, h2, spectral_trace _ he.orth] at h1
    exact Complex.ofReal_eq_zero.mp h1
  -- the determinant along the curve, and its derivative
  let g : ℝ → ℝ := fun t => ∏ i, (1 + t * w i + t ^ 2 * w i ^ 2 / 2)
  have hdet : ∀ t, (pdRetract P (t • V) k).det.re = g t := by
    intro t
    rw [pdRetract_apply hP.1 (hermStack_subspace.smul t hV.1)]
    change ((P k + t • V k + (1 / 2 : ℝ) • (t • V k * ((P k)⁻¹ * (t • V k)))).det).re = _
    rw [pdRetract_whiten hu hC t he, det_mul, det_mul, mul_right_comm, ← det_mul, hC, hP.2 k, one_mul,
      spectral, det_mul_comm, ← Matrix.mul_assoc, he.orth, Matrix.one_mul, det_diagonal]
    have h3 : ∏ i, (((1 + t * w i + t ^ 2 * w i ^ 2 / 2 : ℝ)) : ℂ) = ((g t : ℝ) : ℂ) := by
      simp only [g]; push_cast; rfl
    exact (congrArg Complex.re h3).trans (Complex.ofReal_re _)
  have hg0 : g 0 = 1 := by simp [g]
  have hg : HasDerivAt g 0 0 := by
    have h1 : ∀ i ∈ (Finset.univ : Finset (Fin n)),
        HasDerivAt (fun t : ℝ => 1 + t * w i + t ^ 2 * w i ^ 2 / 2) (w i) 0 := by
      intro i _
      have h2 := (((hasDerivAt_id (0 : ℝ)).mul_const (w i)).const_add 1).add
        ((((hasDerivAt_id (0 : ℝ)).pow 2).mul_const (w i ^ 2)).div_const 2)
      refine (h2.congr_deriv ?_)
      simp
    have h3 := HasDerivAt.fun_finsetProd h1
    refine (h3.congr_deriv ?_)
    simp [hsum]
  have hc : HasDerivAt (fun t => (g t ^ (1 / (n : ℝ)))⁻¹) 0 0 := by
    have h1 := (hg.rpow_const (p := 1 / (n : ℝ)) (Or.inl (by rw [hg0]; exact one_ne_zero))).inv
      (by rw [hg0, Real.one_rpow]; exact one_ne_zero)
    exact h1.congr_deriv (by simp)
  intro i j
  have h1 := hc.smul (hvel k i j)
  have h2 : (fun t : ℝ => (g t ^ (1 / (n : ℝ)))⁻¹ • pdRetract P (t • V) k i j) =
      fun t : ℝ => shpdRetract P (t • V) k i j := by
    funext t
    rw [shpdRetract, unitDet_eq (hpd t k), hdet t]; rfl
  rw [← h2]
  refine h1.congr_deriv ?_
  rw [hg0]; simp

/-! ### C55 and C101 -/

/-- C55 fails for the special manifold: at every point there is a vector, the point itself, that
`to_tangent_space` returns although it is not tangent. -/
theorem C55_shpd_fails [Nonempty κ] (hn : 0 < n) (P : Stack κ (Fin n) (Fin n) ℂ)
    (hP : SHPDPoint P) : ¬ SHPDTangent P (shpdToTangent P P) := by
  intro h
  obtain ⟨k⟩ := ‹Nonempty κ›
  have h1 := h.2 k
  have hH : HermStack P := by
    rw [hermStack_iff]; exact fun k => (hP.1 k).isHermitian
  rw [shpdToTangent, pdProj, multiherm_of_herm hH, inv_mul' (hP.1 k).isUnit, trace_one,
    Fintype.card_fin] at h1
  exact hn.ne' (by exact_mod_cast h1)

/-- C55, what holds for the special manifold: the result is Hermitian and tangent vectors are
returned unchanged.  Missing: the trace condition for other vectors. -/
theorem C55_shpd_partial (P V : Stack κ (Fin n) (Fin n) ℂ) :
    HermStack (shpdToTangent P V) ∧ (SHPDTangent P V → shpdToTangent P V = V) :=
  ⟨multiherm_mem V, fun h => multiherm_of_herm h.1⟩

/-- C101: random tangent vectors of the special manifold are tangent and of norm one, for every draw
that does not project to zero. -/
theorem C101_shpd [Fintype κ] (hn : 0 < n) (P draw : Stack κ (Fin n) (Fin n) ℂ) (hP : PDPoint P)
    (hd : shpdProj P draw ≠ 0) :
    SHPDTangent P (shpdRandomTangent P draw) ∧ pdNorm P (shpdRandomTangent P draw) = 1 := by
  have hp := C86_projection hn P hP
  have hidem : shpdProj P (multiherm draw) = shpdProj P draw := by
    simp only [shpdProj, pdProj, multiherm_of_herm (multiherm_mem draw)]
  have hm : multiherm draw ≠ 0 := by
    intro h0
    rw [h0] at hidem
    exact hd (hidem.symm.trans (hp.fixes (shpdTangent_subspace P).zero))
  obtain ⟨hpos, -⟩ := pdNorm_normalised hP (multiherm_mem draw) hm
  have hne : shpdProj P (pdRandomTangent P draw) ≠ 0 := by
    rw [pdRandomTangent, hp.smul, hidem]
    exact smul_ne_zero (inv_pos.mpr hpos).ne' hd
  exact ⟨(shpdTangent_subspace P).smul _ (hp.mem _), (pdNorm_normalised hP (hp.mem _).1 hne).2⟩

end

/-! ### Examples -/

section
open Complex

/-- A point, a tangent vector and an invertible matrix. -/
example : PDPoint (fun _ : Fin 1 => !![(2 : ℂ), I; -I, 1]) ∧
    HermStack (fun _ : Fin 1 => !![(0 : ℂ), 1 + I; 1 - I, 3]) := by
  constructor
  · intro k
    have h : !![(2 : ℂ), I; -I, 1] = !![(1 : ℂ), I; 0, 1] * (!![(1 : ℂ), I; 0, 1])ᴴ := by
      ext i j
      fin_cases i <;> fin_cases j <;> simp [Matrix.mul_apply, Fin.sum_univ_two]
      norm_num
    have hu : IsUnit !![(1 : ℂ), I; 0, 1] := by
      rw [isUnit_iff_isUnit_det]; simp [det_fin_two]
    change (!![(2 : ℂ), I; -I, 1]).PosDef
    rw [h]
    have := posDef_congr hu (PosDef.one (n := Fin 2) (R := ℂ))
    rwa [Matrix.mul_one] at this
  · rw [hermStack_iff]
    intro k
    ext i j
    fin_cases i <;> fin_cases j <;> simp [conjTranspose_apply, sub_eq_add_neg]

/-- A point and a non-zero tangent vector of the special manifold; its projection is not zero. -/
example : SHPDPoint (fun _ : Fin 2 => (1 : Matrix (Fin 2) (Fin 2) ℂ)) ∧
    SHPDTangent (fun _ : Fin 2 => (1 : Matrix (Fin 2) (Fin 2) ℂ))
      (fun _ => !![(1 : ℂ), I; -I, -1]) ∧
    shpdProj (fun _ : Fin 2 => (1 : Matrix (Fin 2) (Fin 2) ℂ))
      (fun _ => !![(1 : ℂ), I; -I, -1]) ≠ 0 := by
  have hP : SHPDPoint (fun _ : Fin 2 => (1 : Matrix (Fin 2) (Fin 2) ℂ)) :=
    ⟨fun _ => PosDef.one, fun _ => det_one⟩
  have hT : SHPDTangent (fun _ : Fin 2 => (1 : Matrix (Fin 2) (Fin 2) ℂ))
      (fun _ => !![(1 : ℂ), I; -I, -1]) := by
    refine ⟨?_, fun k => ?_⟩
    · rw [hermStack_iff]
      intro k
      ext i j
      fin_cases i <;> fin_cases j <;> simp [conjTranspose_apply]
    · rw [inv_one, Matrix.one_mul, trace_fin_two]; simp
  refine ⟨hP, hT, ?_⟩
  rw [(C86_projection two_pos _ hP.1).fixes hT]
  intro h
  have := congrFun (congrFun (congrFun h 0) 0) 0
  simp at this

/-- A Cholesky factor. -/
example : IsCholesky !![(4 : ℝ), 2; 2, 2] !![(2 : ℝ), 0; 1, 1] := by
  refine ⟨?_, fun i j h => ?_, fun i => ?_⟩
  · ext i j
    fin_cases i <;> fin_cases j <;> simp [Matrix.mul_apply, Fin.sum_univ_two]
    all_goals norm_num
  · fin_cases i <;> fin_cases j <;> simp at h ⊢
  · fin_cases i
    · exact ⟨2, two_pos, by simp⟩
    · exact ⟨1, one_pos, by simp⟩

/-- A cost as assumed in `C84_second_derivative`: half the squared norm, with the identity as
gradient field. -/
example (V : Stack (Fin 2) (Fin 2) (Fin 2) ℝ)
    (P : Stack (Fin 2) (Fin 2) (Fin 2) ℝ) :
    (∀ (c : ℝ → Stack (Fin 2) (Fin 2) (Fin 2) ℝ) (c' : Stack (Fin 2) (Fin 2) (Fin 2) ℝ) (t : ℝ),
      StackDeriv c c' t → PDPoint (c t) →
        HasDerivAt (fun s => stackDot (c s) (c s) / 2) (stackDot (c t) c') t) ∧
    ∃ H, StackDeriv (fun t : ℝ => pdExp P (t • V)) H 0 := by
  constructor
  · intro c c' t hc _
    refine ((hasDerivAt_stackDot hc hc).div_const 2).congr_deriv ?_
    rw [stackDot_comm c' (c t)]; ring
  · refine ⟨fun k => P k * (((P k)⁻¹ * V k)), ?_⟩
    rw [stackDeriv_iff]
    intro k
    have h1 := (MatDeriv.const (P k) 0).mul (matDeriv_exp ((P k)⁻¹ * V k) 0)
    refine (h1.congr_deriv ?_).congr_fun ?_
    · simp
    · intro s
      rw [pdExp_apply]
      simp only [Pi.smul_apply, Matrix.mul_smul]

end

end Verif.Geo
