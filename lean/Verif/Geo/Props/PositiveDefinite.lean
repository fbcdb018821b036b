/-
C81–C86, C55 and C101 for the manifolds of positive definite matrices.
-/
import Verif.Geo.Model.PositiveDefinite
import Verif.Geo.Lemmas.Whiten
import Verif.Geo.Lemmas.MatrixCalc
import Verif.Geo.Lemmas.Exists
import Verif.Geo.Props.Multi

namespace Verif.Geo
open scoped BigOperators ComplexOrder
open Matrix

variable {κ n : Type*} {𝕜 : Type*} [RCLike 𝕜]

/-- Points: stacks of Hermitian positive definite matrices. -/
def PDPoint [Fintype n] (P : Stack κ n n 𝕜) : Prop := ∀ k, (P k).PosDef

/-- The affine-invariant inner product of arbitrary matrices, `Re tr(P⁻¹ Aᴴ P⁻¹ B)` summed over the
stack. -/
noncomputable def pdMetric [Fintype κ] [Fintype n] [DecidableEq n] (P A B : Stack κ n n 𝕜) : ℝ :=
  ∑ k, RCLike.re ((P k)⁻¹ * (A k)ᴴ * ((P k)⁻¹ * B k)).trace

section
variable [Fintype n] [DecidableEq n]

omit [Fintype n] [DecidableEq n] in
theorem multiherm_of_herm {V : Stack κ n n 𝕜} (hV : HermStack V) : multiherm V = V := by
  have hc : multihconj V = V := funext fun k => (hermStack_iff V).mp hV k
  rw [multiherm, hc]; module

omit [Fintype n] [DecidableEq n] in
theorem multiherm_apply (V : Stack κ n n 𝕜) (k : κ) :
    multiherm V k = (1 / 2 : ℝ) • (V k + (V k)ᴴ) := rfl

/-! ### C81 -/

theorem pdInner_eq [Fintype κ] (P A B : Stack κ n n 𝕜) :
    pdInner P A B = ∑ k, RCLike.re ((P k)⁻¹ * A k * ((P k)⁻¹ * B k)).trace := by
  rw [pdInner]
  simp only [map_sum]
  refine Finset.sum_congr rfl fun k _ => ?_
  simp only [trace, diag_apply, map_sum]
  refine Finset.sum_congr rfl fun i _ => ?_
  rw [mul_apply, map_sum]
  rfl

theorem pdInner_metric [Fintype κ] {P A : Stack κ n n 𝕜} (hA : HermStack A) (B : Stack κ n n 𝕜) :
    pdInner P A B = pdMetric P A B := by
  rw [pdInner_eq, pdMetric]
  refine Finset.sum_congr rfl fun k _ => ?_
  rw [(hermStack_iff A).mp hA k]

theorem pdMetric_whiten [Fintype κ] {P C : Stack κ n n 𝕜} (hC : ∀ k, C k * (C k)ᴴ = P k)
    (hu : ∀ k, IsUnit (C k)) (A B : Stack κ n n 𝕜) :
    pdMetric P A B = stackDot (fun k => whiten (C k) (A k)) fun k => whiten (C k) (B k) := by
  rw [pdMetric, stackDot_eq]
  refine Finset.sum_congr rfl fun k _ => ?_
  rw [trace_solve_solve (hu k) (hC k), trDot, whiten_conjTranspose]

theorem pdMetric_inner [Fintype κ] {P : Stack κ n n 𝕜} (hP : PDPoint P) :
    IsInner (E := Stack κ n n 𝕜) (pdMetric P) := by
  choose C hC hu using fun k => exists_factor (hP k)
  have e := pdMetric_whiten hC hu
  refine ⟨fun u v w => ?_, fun c u v => ?_, fun u v => ?_, fun u => ?_, fun u h0 => ?_⟩
  · rw [e, e, e, ← stackDot_add_left]
    congr 1; funext k; exact whiten_add _ _ _
  · rw [e, e, ← stackDot_smul_left]
    congr 1; funext k; exact whiten_smul _ _ _
  · rw [e, e, stackDot_comm]
  · rw [e]; exact stackDot_inner.nonneg _
  · rw [e] at h0
    have := stackDot_inner.definite _ h0
    funext k
    refine whiten_injective (hu k) ((congrFun this k).trans ?_)
    simp [whiten]

/-- C81: at every point `inner_product` is an inner product on Hermitian matrices (the restriction
of the affine-invariant one), and `norm` is its norm. -/
theorem C81_metric [Fintype κ] (P : Stack κ n n 𝕜) (hP : PDPoint P) :
    IsInnerOn (E := Stack κ n n 𝕜) HermStack (pdInner P) ∧
      (∀ A B, HermStack A → pdInner P A B = pdMetric P A B) ∧
      ∀ V, HermStack V → pdNorm P V ^ 2 = pdInner P V V ∧ 0 ≤ pdNorm P V := by
  have hI := pdMetric_inner hP
  have e := fun {A} (hA : HermStack A) B => pdInner_metric (P := P) hA B
  refine ⟨⟨fun u v w hu hv _ => ?_, fun c u v hu _ => ?_, fun u v hu hv => ?_, fun u hu => ?_,
    fun u hu h0 => ?_⟩, fun A B hA => e hA B, fun V hV => ⟨?_, Real.sqrt_nonneg _⟩⟩
  · rw [e (hermStack_subspace.add hu hv), e hu, e hv, hI.add_left]
  · rw [e (hermStack_subspace.smul c hu), e hu, hI.smul_left]
  · rw [e hu, e hv, hI.symm]
  · rw [e hu]; exact hI.nonneg u
  · rw [e hu] at h0; exact hI.definite u h0
  · rw [pdNorm, Real.sq_sqrt]
    rw [e hV]; exact hI.nonneg V

/-- C81: the metric does not change under congruence by an invertible matrix. -/
theorem C81_invariant [Fintype κ] (P A B M : Stack κ n n 𝕜) (hP : PDPoint P)
    (hM : ∀ k, IsUnit (M k)) (hA : HermStack A) :
    pdInner (fun k => M k * P k * (M k)ᴴ) (fun k => M k * A k * (M k)ᴴ)
      (fun k => M k * B k * (M k)ᴴ) = pdInner P A B := by
  choose C hC hu using fun k => exists_factor (hP k)
  have hA' : HermStack fun k => M k * A k * (M k)ᴴ := by
    rw [hermStack_iff]
    intro k
    rw [conjTranspose_mul, conjTranspose_mul, conjTranspose_conjTranspose,
      (hermStack_iff A).mp hA k, Matrix.mul_assoc]
  rw [pdInner_metric hA', pdInner_metric hA, pdMetric_whiten hC hu,
    pdMetric_whiten (C := fun k => M k * C k) (fun k => by
      rw [conjTranspose_mul, ← hC k]; simp only [Matrix.mul_assoc]) (fun k => (hM k).mul (hu k))]
  have hw : ∀ (k : κ) (Z : Matrix n n 𝕜), whiten (M k * C k) (M k * Z * (M k)ᴴ) =
      whiten (C k) Z := by
    intro k Z
    rw [whiten, whiten, Matrix.mul_inv_rev, conjTranspose_mul]
    calc (C k)⁻¹ * (M k)⁻¹ * (M k * Z * (M k)ᴴ) * (((M k)⁻¹)ᴴ * ((C k)⁻¹)ᴴ)
        = (C k)⁻¹ * ((M k)⁻¹ * M k) * Z * ((M k)ᴴ * ((M k)⁻¹)ᴴ) * ((C k)⁻¹)ᴴ := by
          simp only [Matrix.mul_assoc]
      _ = _ := by rw [inv_mul' (hM k), mul_invH (hM k), Matrix.mul_one, Matrix.mul_one]
  simp only [hw]

/-! ### C55, C84: projection, gradient and Hessian -/

/-- C55: `projection` and `to_tangent_space` return Hermitian matrices and are the orthogonal
projection onto them, for the trace inner product and for the metric. -/
theorem C55_posdef [Fintype κ] (P : Stack κ n n 𝕜) (hP : PDPoint P) :
    IsOrthProj (E := Stack κ n n 𝕜) stackDot HermStack (pdProj P) ∧
      IsOrthProj (E := Stack κ n n 𝕜) (pdMetric P) HermStack (pdProj P) := by
  refine ⟨C50_projections.2.2.1, (pdMetric_inner hP).orthProj hermStack_subspace
    (fun V => multiherm_mem V) fun V W hW => ?_⟩
  choose C hC hu using fun k => exists_factor (hP k)
  rw [pdMetric_whiten hC hu, stackDot_eq]
  refine Finset.sum_eq_zero fun k _ => ?_
  rw [trDot_inner.symm]
  refine trDot_herm_skew (whiten_herm ((hermStack_iff W).mp hW k)) ?_
  rw [whiten_conjTranspose]
  have : ((V - pdProj P V) k)ᴴ = -((V - pdProj P V) k) := by
    have h1 : (V - pdProj P V) k = (1 / 2 : ℝ) • (V k - (V k)ᴴ) := by
      change V k - (1 / 2 : ℝ) • (V k + (V k)ᴴ) = _
      module
    rw [h1, conjTranspose_smul, conjTranspose_sub, conjTranspose_conjTranspose, star_trivial]
    module
  rw [this, whiten, whiten, Matrix.mul_neg, Matrix.neg_mul]

omit [Fintype n] [DecidableEq n] in
theorem HermStack.k {V : Stack κ n n 𝕜} (hV : HermStack V) (k : κ) : (V k)ᴴ = V k :=
  (hermStack_iff V).mp hV k

/-- C84: the converted gradient is Hermitian and represents the Euclidean differential. -/
theorem C84_gradient [Fintype κ] (P G : Stack κ n n 𝕜) (hP : PDPoint P) :
    HermStack (pdE2rg P G) ∧ ∀ V, HermStack V → pdInner P (pdE2rg P G) V = stackDot G V := by
  refine ⟨multiherm_mem _, fun V hV => ?_⟩
  have hH : HermStack (pdE2rg P G) := multiherm_mem _
  rw [pdInner_metric hH, pdE2rg, (C55_posdef P hP).2.represents _ hV, pdMetric, stackDot_eq]
  refine Finset.sum_congr rfl fun k _ => ?_
  have hPk : (P k)ᴴ = P k := (hP k).isHermitian
  have hu := (hP k).isUnit
  change RCLike.re ((P k)⁻¹ * (P k * G k * P k)ᴴ * ((P k)⁻¹ * V k)).trace = _
  rw [conjTranspose_mul, conjTranspose_mul, hPk, trDot]
  congr 2
  calc (P k)⁻¹ * (P k * ((G k)ᴴ * P k)) * ((P k)⁻¹ * V k)
      = ((P k)⁻¹ * P k) * (G k)ᴴ * (P k * (P k)⁻¹) * V k := by simp only [Matrix.mul_assoc]
    _ = (G k)ᴴ * V k := by rw [inv_mul' hu, mul_inv' hu, Matrix.one_mul, Matrix.mul_one]

/-- The metric product of a Hermitian matrix with the converted Hessian. -/
theorem pdInner_hess [Fintype κ] {P : Stack κ n n 𝕜} (hP : PDPoint P) (G H U V : Stack κ n n 𝕜)
    (hU : HermStack U) :
    pdInner P U (pdE2rh P G H V) = stackDot U H +
      ∑ k, RCLike.re ((P k)⁻¹ * U k * ((P k)⁻¹ * V k) * multiherm G k * P k).trace := by
  have hmem : HermStack (multiherm (multiprod (multiprod V (multiherm G)) P)) := multiherm_mem _
  have h1 : pdInner P U (pdE2rh P G H V) =
      pdMetric P U (multiprod (multiprod P (multiherm H)) P) +
        pdMetric P U (multiprod (multiprod V (multiherm G)) P) := by
    rw [pdInner_metric hU, pdE2rh, (pdMetric_inner hP).add_right]
    congr 1
    have := (C55_posdef P hP).2.represents (multiprod (multiprod V (multiherm G)) P) hU
    rw [(pdMetric_inner hP).symm U, (pdMetric_inner hP).symm U]
    exact this
  rw [h1]
  congr 1
  · have h2 : stackDot U H = stackDot U (multiherm H) := by
      rw [stackDot_comm, stackDot_comm U]
      exact (C50_projections.2.2.1.represents H hU).symm
    rw [h2, pdMetric, stackDot_eq]
    refine Finset.sum_congr rfl fun k _ => ?_
    have hu := (hP k).isUnit
    rw [hU.k k, trDot, hU.k k]
    congr 1
    change ((P k)⁻¹ * U k * ((P k)⁻¹ * (P k * multiherm H k * P k))).trace = _
    have : (P k)⁻¹ * U k * ((P k)⁻¹ * (P k * multiherm H k * P k)) =
        (P k)⁻¹ * (U k * multiherm H k * P k) := by
      calc _ = (P k)⁻¹ * U k * ((P k)⁻¹ * P k) * multiherm H k * P k := by
            simp only [Matrix.mul_assoc]
        _ = _ := by rw [inv_mul' hu, Matrix.mul_one]; simp only [Matrix.mul_assoc]
    rw [this, trace_mul_comm, Matrix.mul_assoc, mul_inv' hu, Matrix.mul_one]
  · rw [pdMetric]
    refine Finset.sum_congr rfl fun k _ => ?_
    rw [hU.k k]
    congr 2
    change (P k)⁻¹ * U k * ((P k)⁻¹ * (V k * multiherm G k * P k)) = _
    simp only [Matrix.mul_assoc]

theorem hess_trace {P G U V : Matrix n n 𝕜} (hP : P.PosDef) (hG : Gᴴ = G) (hU : Uᴴ = U)
    (hV : Vᴴ = V) : RCLike.re (P⁻¹ * U * (P⁻¹ * V) * G * P).trace =
      RCLike.re (P⁻¹ * V * (P⁻¹ * U) * G * P).trace := by
  have hPi : (P⁻¹)ᴴ = P⁻¹ := by rw [conjTranspose_nonsing_inv, hP.isHermitian.eq]
  have e : ∀ A B : Matrix n n 𝕜, (P⁻¹ * A * (P⁻¹ * B) * G * P).trace =
      (A * P⁻¹ * B * G).trace := by
    intro A B
    rw [trace_mul_comm]
    congr 1
    calc P * (P⁻¹ * A * (P⁻¹ * B) * G) = P * P⁻¹ * A * P⁻¹ * B * G := by
          simp only [Matrix.mul_assoc]
      _ = _ := by rw [mul_inv' hP.isUnit, Matrix.one_mul]
  have h2 : (V * P⁻¹ * U * G).trace = star ((U * P⁻¹ * V * G).trace) := by
    rw [← trace_conjTranspose, conjTranspose_mul, conjTranspose_mul, conjTranspose_mul, hU, hV, hG,
      hPi, trace_mul_comm]
    simp only [Matrix.mul_assoc]
  rw [e, e, h2, RCLike.star_def, RCLike.conj_re]

omit [DecidableEq n] in
theorem pdE2rh_herm {P : Stack κ n n 𝕜} (hP : PDPoint P) (G H V : Stack κ n n 𝕜) :
    HermStack (pdE2rh P G H V) := by
  refine hermStack_subspace.add ?_ (multiherm_mem _)
  rw [hermStack_iff]
  intro k
  have hPk : (P k)ᴴ = P k := (hP k).isHermitian
  have hm := (multiherm_mem H).k k
  change (P k * multiherm H k * P k)ᴴ = P k * multiherm H k * P k
  rw [conjTranspose_mul, conjTranspose_mul, hPk, hm, Matrix.mul_assoc]

/-- C84: the converted Hessian is Hermitian and symmetric for the metric when the Euclidean one is
symmetric for the trace inner product. -/
theorem C84_symmetric [Fintype κ] (P G : Stack κ n n 𝕜) (hP : PDPoint P)
    (H : Stack κ n n 𝕜 → Stack κ n n 𝕜)
    (hH : ∀ U V, HermStack U → HermStack V → stackDot U (H V) = stackDot (H U) V) :
    IsSymmOn (E := Stack κ n n 𝕜) (pdInner P) HermStack fun V => pdE2rh P G (H V) V := by
  constructor
  · intro V _
    exact pdE2rh_herm hP G (H V) V
  · intro U V hU hV
    have h1 := (C81_metric P hP).1.symm (pdE2rh P G (H U) U) V (pdE2rh_herm hP G (H U) U) hV
    have h2 := pdInner_hess hP G (H V) U V hU
    have h3 := pdInner_hess hP G (H U) V U hV
    have h4 : ∑ k, RCLike.re ((P k)⁻¹ * U k * ((P k)⁻¹ * V k) * multiherm G k * P k).trace =
        ∑ k, RCLike.re ((P k)⁻¹ * V k * ((P k)⁻¹ * U k) * multiherm G k * P k).trace :=
      Finset.sum_congr rfl fun k _ =>
        hess_trace (hP k) ((multiherm_mem G).k k) (hU.k k) (hV.k k)
    have h5 := hH U V hU hV
    have h6 := stackDot_comm V (H U)
    linarith

/-! ### C82, C83: exp and retraction -/

theorem pdExp_apply (P V : Stack κ n n 𝕜) (k : κ) :
    pdExp P V k = P k * NormedSpace.exp ((P k)⁻¹ * V k) := rfl

/-- C82: `exp` returns a point. -/
theorem C82_exp (P V : Stack κ n n 𝕜) (hP : PDPoint P) (hV : HermStack V) :
    PDPoint (pdExp P V) ∧ pdExp P (pdZero P) = P := by
  constructor
  · intro k
    obtain ⟨C, hC, hu⟩ := exists_factor (hP k)
    rw [pdExp_apply, exp_solve hu hC]
    exact posDef_congr hu (posDef_exp (whiten_herm (hV.k k)))
  · funext k
    rw [pdExp_apply]
    simp [pdZero]

theorem pdRetract_apply {P V : Stack κ n n 𝕜} (hP : PDPoint P) (hV : HermStack V) (k : κ) :
    pdRetract P V k = P k + V k + (1 / 2 : ℝ) • (V k * ((P k)⁻¹ * V k)) := by
  have hPk : (P k)ᴴ = P k := (hP k).isHermitian
  have hPi : ((P k)⁻¹)ᴴ = (P k)⁻¹ := by rw [conjTranspose_nonsing_inv, hPk]
  change (1 / 2 : ℝ) • ((P k + V k + (1 / 2 : ℝ) • (V k * ((P k)⁻¹ * V k))) +
    (P k + V k + (1 / 2 : ℝ) • (V k * ((P k)⁻¹ * V k)))ᴴ) = _
  have : (P k + V k + (1 / 2 : ℝ) • (V k * ((P k)⁻¹ * V k)))ᴴ =
      P k + V k + (1 / 2 : ℝ) • (V k * ((P k)⁻¹ * V k)) := by
    rw [conjTranspose_add, conjTranspose_add, conjTranspose_smul, conjTranspose_mul,
      conjTranspose_mul, hPk, hV.k, hPi, star_trivial, Matrix.mul_assoc]
  rw [this]; module

/-- C83: `retraction` returns a point, and the given point for the zero vector. -/
theorem C83_retraction (P V : Stack κ n n 𝕜) (hP : PDPoint P) (hV : HermStack V) :
    PDPoint (pdRetract P V) ∧ pdRetract P (pdZero P) = P := by
  constructor
  · intro k
    rw [pdRetract_apply hP hV]
    have hu := (hP k).isUnit
    have e : P k + V k + (1 / 2 : ℝ) • (V k * ((P k)⁻¹ * V k)) =
        (1 / 2 : ℝ) • P k + (1 / 2 : ℝ) • ((P k + V k) * (P k)⁻¹ * (P k + V k)ᴴ) := by
      have hPk : (P k)ᴴ = P k := (hP k).isHermitian
      rw [conjTranspose_add, hPk, hV.k, Matrix.add_mul, mul_inv' hu, Matrix.add_mul, Matrix.mul_add,
        Matrix.mul_add, Matrix.one_mul, Matrix.one_mul, Matrix.mul_assoc, inv_mul' hu,
        Matrix.mul_one, Matrix.mul_assoc]
      module
    rw [e]
    have h2 : ((1 / 2 : ℝ) • P k) = (((1 / 2 : ℝ) : 𝕜)) • P k := by
      ext i j; simp [RCLike.real_smul_eq_coe_mul]
    have h3 : ((1 / 2 : ℝ) • ((P k + V k) * (P k)⁻¹ * (P k + V k)ᴴ)) =
        (((1 / 2 : ℝ) : 𝕜)) • ((P k + V k) * (P k)⁻¹ * (P k + V k)ᴴ) := by
      ext i j; simp only [Matrix.smul_apply, RCLike.real_smul_eq_coe_mul, smul_eq_mul]
    have hpos : (0 : 𝕜) < ((1 / 2 : ℝ) : 𝕜) := by
      exact_mod_cast (by norm_num : (0 : ℝ) < 1 / 2)
    rw [h2, h3]
    refine Matrix.PosDef.add_posSemidef ((hP k).smul hpos) ?_
    exact (((hP k).inv.posSemidef).mul_mul_conjTranspose_same (P k + V k)).smul hpos.le
  · have h0 : HermStack (pdZero P) := hermStack_subspace.zero
    funext k
    rw [pdRetract_apply hP h0]
    simp [pdZero]

/-- C82, C83: exponential and retraction leave the point in the direction of the tangent vector. -/
theorem C83_velocity (P V : Stack κ n n 𝕜) (hP : PDPoint P) (hV : HermStack V) :
    StackDeriv (fun t : ℝ => pdRetract P (t • V)) V 0 ∧
      StackDeriv (fun t : ℝ => pdExp P (t • V)) V 0 := by
  have hu := fun k => (hP k).isUnit
  constructor
  · rw [stackDeriv_iff]
    intro k
    have e : ∀ t : ℝ, pdRetract P (t • V) k =
        P k + t • V k + (t ^ 2) • ((1 / 2 : ℝ) • (V k * ((P k)⁻¹ * V k))) := by
      intro t
      rw [pdRetract_apply hP (hermStack_subspace.smul t hV)]
      simp only [Pi.smul_apply, Matrix.smul_mul, Matrix.mul_smul]
      module
    intro i j
    simp only [e]
    have h1 := ((hasDerivAt_id (0 : ℝ)).smul_const (V k i j)).const_add (P k i j)
    have h2 := ((hasDerivAt_id (0 : ℝ)).pow 2).smul_const
      (((1 / 2 : ℝ) • (V k * ((P k)⁻¹ * V k))) i j)
    refine (h1.add h2).congr_deriv ?_
    simp
  · rw [stackDeriv_iff]
    intro k
    have h1 := (MatDeriv.const (P k) 0).mul (matDeriv_exp ((P k)⁻¹ * V k) 0)
    refine (h1.congr_deriv ?_).congr_fun ?_
    · rw [zero_smul, NormedSpace.exp_zero, Matrix.one_mul, ← Matrix.mul_assoc, mul_inv' (hu k),
        Matrix.one_mul]
      simp
    · intro t
      rw [pdExp_apply]
      simp only [Pi.smul_apply, Matrix.mul_smul]

/-- C84: the quadratic form of the converted Hessian is the second derivative of the cost along the
geodesic.  `f` is the cost, `G` its Euclidean gradient field, `H` the derivative of `G` along the
geodesic through `P` with velocity `V`. -/
theorem C84_second_derivative [Fintype κ] (P V : Stack κ n n 𝕜) (hP : PDPoint P) (hV : HermStack V)
    (f : Stack κ n n 𝕜 → ℝ) (G : Stack κ n n 𝕜 → Stack κ n n 𝕜) (H : Stack κ n n 𝕜)
    (hf : ∀ (c : ℝ → Stack κ n n 𝕜) (c' : Stack κ n n 𝕜) (t : ℝ), StackDeriv c c' t →
      PDPoint (c t) → HasDerivAt (fun s => f (c s)) (stackDot (G (c t)) c') t)
    (hG : StackDeriv (fun t : ℝ => G (pdExp P (t • V))) H 0) :
    ∃ φ : ℝ → ℝ, (∀ t, HasDerivAt (fun s : ℝ => f (pdExp P (s • V))) (φ t) t) ∧
      φ 0 = pdInner P (pdE2rg P (G P)) V ∧
      HasDerivAt φ (pdInner P V (pdE2rh P (G P) H V)) 0 := by
  have hu := fun k => (hP k).isUnit
  let γ' : ℝ → Stack κ n n 𝕜 := fun t k =>
    P k * (NormedSpace.exp (t • ((P k)⁻¹ * V k)) * ((P k)⁻¹ * V k))
  have hd : ∀ t, StackDeriv (fun s : ℝ => pdExp P (s • V)) (γ' t) t := by
    intro t
    rw [stackDeriv_iff]
    intro k
    have h1 := (MatDeriv.const (P k) t).mul (matDeriv_exp ((P k)⁻¹ * V k) t)
    refine (h1.congr_deriv ?_).congr_fun ?_
    · simp [γ']
    · intro s
      rw [pdExp_apply]
      simp only [Pi.smul_apply, Matrix.mul_smul]
  have h0 : pdExp P ((0 : ℝ) • V) = P := by
    rw [zero_smul]; exact (C82_exp P V hP hV).2
  have hγ0 : γ' 0 = V := by
    funext k
    simp only [γ']
    rw [zero_smul, NormedSpace.exp_zero, Matrix.one_mul, ← Matrix.mul_assoc, mul_inv' (hu k),
      Matrix.one_mul]
  have hγ'' : StackDeriv γ' (fun k => V k * ((P k)⁻¹ * V k)) 0 := by
    rw [stackDeriv_iff]
    intro k
    have h1 := (MatDeriv.const (P k) 0).mul
      ((matDeriv_exp ((P k)⁻¹ * V k) 0).mul (MatDeriv.const ((P k)⁻¹ * V k) 0))
    refine h1.congr_deriv ?_
    rw [zero_smul, NormedSpace.exp_zero, Matrix.one_mul, Matrix.zero_mul, Matrix.mul_zero, zero_add,
      add_zero, ← Matrix.mul_assoc (P k), ← Matrix.mul_assoc (P k), mul_inv' (hu k), Matrix.one_mul]
  refine ⟨fun t => stackDot (G (pdExp P (t • V))) (γ' t), fun t => hf _ _ t (hd t)
    (C82_exp P (t • V) hP (hermStack_subspace.smul t hV)).1, ?_, ?_⟩
  · change stackDot (G (pdExp P ((0 : ℝ) • V))) (γ' 0) = _
    rw [h0, hγ0, (C84_gradient P (G P) hP).2 V hV]
  · refine (hasDerivAt_stackDot hG hγ'').congr_deriv ?_
    have h2 := pdInner_hess hP (G P) H V V hV
    have hW : HermStack fun k => V k * ((P k)⁻¹ * V k) := by
      rw [hermStack_iff]
      intro k
      rw [conjTranspose_mul, conjTranspose_mul, hV.k, conjTranspose_nonsing_inv,
        (hP k).isHermitian.eq, Matrix.mul_assoc]
    have h3 : stackDot (G P) (fun k => V k * ((P k)⁻¹ * V k)) =
        stackDot (multiherm (G P)) fun k => V k * ((P k)⁻¹ * V k) :=
      (C50_projections.2.2.1.represents (G P) hW).symm
    have h4 : stackDot (multiherm (G P)) (fun k => V k * ((P k)⁻¹ * V k)) =
        ∑ k, RCLike.re ((P k)⁻¹ * V k * ((P k)⁻¹ * V k) * multiherm (G P) k * P k).trace := by
      rw [stackDot_eq]
      refine Finset.sum_congr rfl fun k _ => ?_
      rw [trDot, (multiherm_mem (G P)).k k, trace_mul_comm]
      have e : ((P k)⁻¹ * V k * ((P k)⁻¹ * V k) * multiherm (G P) k * P k).trace =
          (V k * ((P k)⁻¹ * V k) * multiherm (G P) k).trace := by
        rw [trace_mul_comm]
        calc (P k * ((P k)⁻¹ * V k * ((P k)⁻¹ * V k) * multiherm (G P) k)).trace =
            (P k * (P k)⁻¹ * (V k * ((P k)⁻¹ * V k) * multiherm (G P) k)).trace := by
              simp only [Matrix.mul_assoc]
          _ = _ := by rw [mul_inv' (hu k), Matrix.one_mul]
      rw [e]
    have h5 : stackDot H (γ' 0) = stackDot V H := by rw [hγ0, stackDot_comm]
    rw [h0]
    linarith

end

/-! ### C82: log and dist -/

section
variable {n : ℕ}

theorem IsCholesky.isUnit {P c : Matrix (Fin n) (Fin n) 𝕜} (h : IsCholesky P c) : IsUnit c := by
  have hdet : c.det = ∏ i, c i i := by
    refine det_of_isLowerTriangular _ ?_
    intro a b hab
    exact h.lower a b hab
  rw [isUnit_iff_isUnit_det, hdet, isUnit_iff_ne_zero, Finset.prod_ne_zero_iff]
  intro i _
  obtain ⟨d, hd, hi⟩ := h.diag i
  rw [hi]
  exact_mod_cast hd.ne'

theorem pdLogArg_apply (c B : Stack κ (Fin n) (Fin n) 𝕜) (k : κ) :
    pdLogArg c B k = whiten (c k) (B k) := rfl

theorem pdLog_apply (c : Stack κ (Fin n) (Fin n) 𝕜) (w : κ → Fin n → ℝ)
    (v : Stack κ (Fin n) (Fin n) 𝕜) (k : κ) :
    pdLog c w v k = c k * logmPos (w k) (v k) * (c k)ᴴ := rfl

/-- C82: `log` and `dist` return a result for all points. -/
theorem C82_total [Fintype κ] {A B : Stack κ (Fin n) (Fin n) 𝕜} (hA : PDPoint A) (hB : PDPoint B) :
    (∃ L, IsPdLog A B L) ∧ ∃ d, IsPdDist A B d := by
  choose c hc using fun k => exists_isCholesky (hA k)
  choose w v h using fun k =>
    exists_isEigh (A := pdLogArg c B k) (posDef_whiten (hc k).isUnit (hB k)).isHermitian
  exact ⟨⟨_, c, w, v, hc, h, rfl⟩, ⟨_, c, w, v, hc, h, rfl⟩⟩

/-- C82: `log` is Hermitian and `exp` undoes it. -/
theorem C82_exp_log {A B L : Stack κ (Fin n) (Fin n) 𝕜} (hB : PDPoint B) (h : IsPdLog A B L) :
    HermStack L ∧ pdExp A L = B := by
  obtain ⟨c, w, v, hc, he, rfl⟩ := h
  have hlog := fun k => C52_log (he k) (posDef_whiten (hc k).isUnit (hB k))
  constructor
  · rw [hermStack_iff]
    intro k
    rw [pdLog_apply, conjTranspose_mul, conjTranspose_mul, conjTranspose_conjTranspose,
      (hlog k).1.eq, Matrix.mul_assoc]
  · funext k
    rw [pdExp_apply, exp_solve (hc k).isUnit (hc k).prod, pdLog_apply, whiten_mul (hc k).isUnit,
      (hlog k).2.1, pdLogArg_apply, unwhiten (hc k).isUnit]

/-- C82: `log` undoes `exp`. -/
theorem C82_log_exp {A V L : Stack κ (Fin n) (Fin n) 𝕜} (hV : HermStack V)
    (h : IsPdLog A (pdExp A V) L) : L = V := by
  obtain ⟨c, w, v, hc, he, rfl⟩ := h
  funext k
  have hu := (hc k).isUnit
  have e : pdLogArg c (pdExp A V) k = NormedSpace.exp (whiten (c k) (V k)) := by
    rw [pdLogArg_apply, pdExp_apply, exp_solve hu (hc k).prod, whiten_mul hu]
  have hW : (whiten (c k) (V k)).IsHermitian := whiten_herm (hV.k k)
  have hk := he k
  rw [e] at hk
  rw [pdLog_apply, ← (C52_log hk (posDef_exp hW)).2.2 _ hW rfl, unwhiten hu]

theorem pdDist_sq [Fintype κ] {B : Stack κ (Fin n) (Fin n) 𝕜} {c : Stack κ (Fin n) (Fin n) 𝕜}
    {w : κ → Fin n → ℝ} {v : Stack κ (Fin n) (Fin n) 𝕜}
    (he : ∀ k, IsEigh (pdLogArg c B k) (w k) (v k)) :
    pdDist w v ^ 2 = ∑ k, ∑ i, Real.log (w k i) ^ 2 := by
  rw [pdDist, stackNorm_sq, stackDot_eq]
  refine Finset.sum_congr rfl fun k _ => ?_
  rw [logmPos_eq, trDot, spectral_conjTranspose, spectral_mul _ _ (he k).orth,
    spectral_trace _ (he k).orth, RCLike.ofReal_re]
  exact Finset.sum_congr rfl fun i _ => (sq _).symm

/-- C82: the distance is the norm of the logarithm. -/
theorem C82_dist_log [Fintype κ] {A B L : Stack κ (Fin n) (Fin n) 𝕜} (hA : PDPoint A)
    (hB : PDPoint B) (h : IsPdLog A B L) {d : ℝ} (hd : IsPdDist A B d) :
    d = pdNorm A L := by
  have hL := (C82_exp_log hB h).1
  obtain ⟨c, w, v, hc, he, rfl⟩ := hd
  obtain ⟨c', w', v', hc', he', rfl⟩ := h
  have h1 := ((C81_metric A hA).2.2 _ hL).1
  rw [pdInner_metric hL, pdMetric_whiten (fun k => (hc' k).prod) fun k => (hc' k).isUnit] at h1
  have h2 : (fun k => whiten (c' k) (pdLog c' w' v' k)) = fun k => logmPos (w' k) (v' k) :=
    funext fun k => by rw [pdLog_apply, whiten_mul (hc' k).isUnit]
  rw [h2, ← stackNorm_sq] at h1
  have h3 : pdDist w v ^ 2 = pdDist w' v' ^ 2 := by
    rw [pdDist_sq he, pdDist_sq he']
    refine Finset.sum_congr rfl fun k _ => ?_
    -- both matrices are `whiten`ings of `B` by factors of `A`, so they are unitarily similar
    have hu := (hc k).isUnit
    have hu' := (hc' k).isUnit
    set U := (c' k)⁻¹ * c k with hU
    have hUU : Uᴴ * U = 1 := by
      have h4 : U * Uᴴ = 1 := by
        rw [hU, conjTranspose_mul]
        calc (c' k)⁻¹ * c k * ((c k)ᴴ * ((c' k)⁻¹)ᴴ) = whiten (c' k) (c k * (c k)ᴴ) := by
              rw [whiten]; simp only [Matrix.mul_assoc]
          _ = whiten (c' k) (c' k * 1 * (c' k)ᴴ) := by
              rw [(hc k).prod, Matrix.mul_one, (hc' k).prod]
          _ = 1 := whiten_mul hu' 1
      exact mul_eq_one_comm.mp h4
    have h5 : IsEigh (pdLogArg c' B k) (w k) (U * v k) := by
      refine ⟨?_, ?_⟩
      · rw [conjTranspose_mul, Matrix.mul_assoc, ← Matrix.mul_assoc Uᴴ, hUU, Matrix.one_mul,
          (he k).orth]
      · have e : pdLogArg c' B k = U * pdLogArg c B k * Uᴴ := by
          rw [pdLogArg_apply, pdLogArg_apply, hU, conjTranspose_mul]
          calc whiten (c' k) (B k) = whiten (c' k) (c k * whiten (c k) (B k) * (c k)ᴴ) := by
                rw [unwhiten hu]
            _ = _ := by rw [whiten]; simp only [Matrix.mul_assoc]
        rw [e]
        conv_lhs => rw [(he k).prod]
        rw [conjTranspose_mul U (v k)]; simp only [Matrix.mul_assoc]
    exact eigh_sum_unique h5 (he' k) fun x => Real.log x ^ 2
  refine (pow_left_inj₀ (stackNorm_nonneg _) (Real.sqrt_nonneg _) two_ne_zero).mp ?_
  exact h3.trans h1.symm

/-- C82: `dist(A, exp(A, V)) = norm(A, V)`. -/
theorem C82_dist_exp [Fintype κ] {A V : Stack κ (Fin n) (Fin n) 𝕜} (hA : PDPoint A)
    (hV : HermStack V) {d : ℝ} (hd : IsPdDist A (pdExp A V) d) : d = pdNorm A V := by
  have hE := (C82_exp A V hA hV).1
  obtain ⟨L, hL⟩ := (C82_total hA hE).1
  rw [C82_dist_log hA hE hL hd, C82_log_exp hV hL]

/-- C82: the distance is non-negative, and zero only between equal points. -/
theorem C82_dist_zero [Fintype κ] {A B : Stack κ (Fin n) (Fin n) 𝕜} (hA : PDPoint A)
    (hB : PDPoint B) {d : ℝ} (hd : IsPdDist A B d) : 0 ≤ d ∧ (d = 0 ↔ A = B) := by
  obtain ⟨L, hL⟩ := (C82_total hA hB).1
  obtain ⟨hLh, hexp⟩ := C82_exp_log hB hL
  have h1 := C82_dist_log hA hB hL hd
  obtain ⟨hin, -, hn⟩ := C81_metric A hA
  refine ⟨h1 ▸ (hn L hLh).2, ?_⟩
  constructor
  · intro h0
    have h2 := (hn L hLh).1
    rw [← h1, h0] at h2
    have hL0 : L = 0 := hin.definite L hLh (by rw [← h2]; ring)
    have := (C82_exp A L hA hLh).2
    rw [← hexp, hL0]
    exact this.symm
  · rintro rfl
    have h2 : IsPdLog A (pdExp A 0) L := by
      have := (C82_exp A L hA hLh).2
      rw [show pdExp A 0 = A from this]; exact hL
    have hL0 := C82_log_exp (hermStack_subspace (κ := κ) (n := Fin n) (𝕜 := 𝕜)).zero h2
    have h3 := (hn L hLh).1
    rw [h1]
    rw [hL0] at h3 ⊢
    have h4 : pdInner A (0 : Stack κ (Fin n) (Fin n) 𝕜) 0 = 0 := by
      rw [pdInner_metric (hermStack_subspace (κ := κ) (n := Fin n) (𝕜 := 𝕜)).zero]; exact (pdMetric_inner hA).zero_left 0
    rw [h4] at h3
    exact pow_eq_zero_iff two_ne_zero |>.mp h3

/-- C82: the distance is symmetric. -/
theorem C82_dist_symm [Fintype κ] {A B : Stack κ (Fin n) (Fin n) 𝕜}
    (hB : PDPoint B) {d d' : ℝ} (hd : IsPdDist A B d) (hd' : IsPdDist B A d') : d = d' := by
  obtain ⟨c, w, v, hc, he, rfl⟩ := hd
  obtain ⟨c', w', v', hc', he', rfl⟩ := hd'
  refine (pow_left_inj₀ (stackNorm_nonneg _) (stackNorm_nonneg _) two_ne_zero).mp ?_
  change pdDist w v ^ 2 = pdDist w' v' ^ 2
  rw [pdDist_sq he, pdDist_sq he']
  refine Finset.sum_congr rfl fun k _ => ?_
  have hu := (hc k).isUnit
  have hu' := (hc' k).isUnit
  have hw := (he k).eigenvalue_pos (posDef_whiten hu (hB k))
  -- `M = c⁻¹ c'`; the two arguments are `M Mᴴ` and `M⁻¹ M⁻ᴴ`
  set M := (c k)⁻¹ * c' k with hM
  set N := (c' k)⁻¹ * c k with hN
  have hMN : M * N = 1 := by
    rw [hM, hN, Matrix.mul_assoc, ← Matrix.mul_assoc (c' k), mul_inv' hu', Matrix.one_mul,
      inv_mul' hu]
  have hNM : N * M = 1 := mul_eq_one_comm.mp hMN
  have e1 : pdLogArg c B k = M * Mᴴ := by
    rw [pdLogArg_apply, whiten, ← (hc' k).prod, hM, conjTranspose_mul]
    simp only [Matrix.mul_assoc]
  have e2 : pdLogArg c' A k = N * Nᴴ := by
    rw [pdLogArg_apply, whiten, ← (hc k).prod, hN, conjTranspose_mul]
    simp only [Matrix.mul_assoc]
  have hMN' : Nᴴ * Mᴴ = 1 := by rw [← conjTranspose_mul, hMN, conjTranspose_one]
  have hNM' : Mᴴ * Nᴴ = 1 := by rw [← conjTranspose_mul, hNM, conjTranspose_one]
  have hek := he k
  rw [e1] at hek
  -- `Nᴴ N` is the inverse of `M Mᴴ`
  have hinv : Nᴴ * N = spectral (fun x => x⁻¹) (w k) (v k) := by
    have h1 : Nᴴ * N * (M * Mᴴ) = 1 := by
      rw [Matrix.mul_assoc, ← Matrix.mul_assoc N, hNM, Matrix.one_mul, hMN']
    have h2 : M * Mᴴ * spectral (fun x => x⁻¹) (w k) (v k) = 1 := by
      have h3 : M * Mᴴ = spectral (fun x => x) (w k) (v k) := hek.prod
      rw [h3, spectral_mul _ _ hek.orth]
      exact spectral_one _ hek.orth' fun i => mul_inv_cancel₀ (hw i).ne'
    calc Nᴴ * N = Nᴴ * N * (M * Mᴴ * spectral (fun x => x⁻¹) (w k) (v k)) := by
          rw [h2, Matrix.mul_one]
      _ = _ := by rw [← Matrix.mul_assoc, h1, Matrix.one_mul]
  set U := N * (v k * diagonal fun i => ((Real.sqrt (w k i) : ℝ) : 𝕜)) with hUdef
  set D := diagonal fun i => ((Real.sqrt (w k i) : ℝ) : 𝕜) with hD
  have hDD : Dᴴ = D := by
    rw [hD, diagonal_conjTranspose]; congr 1; funext i; simp
  have h4 : IsEigh (N * Nᴴ) (fun i => (w k i)⁻¹) U := by
    constructor
    · rw [hUdef, conjTranspose_mul, conjTranspose_mul, hDD]
      calc D * (v k)ᴴ * Nᴴ * (N * (v k * D)) = D * (v k)ᴴ * (Nᴴ * N) * v k * D := by
            simp only [Matrix.mul_assoc]
        _ = D * ((v k)ᴴ * v k) * diagonal (fun i => (((w k i)⁻¹ : ℝ) : 𝕜)) *
              ((v k)ᴴ * v k) * D := by
            rw [hinv, spectral]; simp only [Matrix.mul_assoc]
        _ = 1 := by
            rw [hek.orth, Matrix.mul_one, Matrix.mul_one, hD, diagonal_mul_diagonal,
              diagonal_mul_diagonal, ← diagonal_one]
            congr 1; funext i
            rw [← RCLike.ofReal_mul, ← RCLike.ofReal_mul, ← RCLike.ofReal_one]
            congr 1
            have h5 := Real.mul_self_sqrt (hw i).le
            have h6 := (hw i).ne'
            field_simp
            rw [sq, h5]
    · have h7 : D * diagonal (fun i => (((w k i)⁻¹ : ℝ) : 𝕜)) * D = 1 := by
        rw [hD, diagonal_mul_diagonal, diagonal_mul_diagonal, ← diagonal_one]
        congr 1; funext i
        rw [← RCLike.ofReal_mul, ← RCLike.ofReal_mul, ← RCLike.ofReal_one]
        congr 1
        have h5 := Real.mul_self_sqrt (hw i).le
        have h6 := (hw i).ne'
        field_simp
        rw [sq, h5]
      rw [hUdef, conjTranspose_mul N, conjTranspose_mul (v k), hDD]
      calc N * Nᴴ = N * (v k * 1 * (v k)ᴴ) * Nᴴ := by
            rw [Matrix.mul_one, hek.orth', Matrix.mul_one]
        _ = _ := by rw [← h7]; simp only [Matrix.mul_assoc]
  have h8 := he' k
  rw [e2] at h8
  rw [← eigh_sum_unique h4 h8 fun x => Real.log x ^ 2]
  refine Finset.sum_congr rfl fun i _ => ?_
  rw [Real.log_inv, neg_sq]

end

end Verif.Geo
