/-
C136: the cost of examples/notebooks/mixture_of_gaussians.py has the local minima of the negative log
likelihood of the mixture.
-/
import Mathlib.Analysis.SpecialFunctions.Pow.Real
import Mathlib.Analysis.SpecialFunctions.Log.Deriv
import Mathlib.LinearAlgebra.Matrix.SchurComplement
import Mathlib.LinearAlgebra.Matrix.PosDef
import Mathlib.Analysis.Matrix.PosDef
import Mathlib.Algebra.BigOperators.Field
import Mathlib.Algebra.Order.Star.Real
import Mathlib.Topology.Instances.Matrix
import Mathlib.Topology.Order.LocalExtr
import Verif.Geo.Model.Mixture

namespace Verif.Geo.Examples
open Matrix Filter Topology
open scoped BigOperators

variable {ι N : Type*} [Fintype ι] [DecidableEq ι] {K : ℕ}

/-- The density of the normal distribution with mean `μ` and covariance `C`. -/
noncomputable def gaussPdf (μ : ι → ℝ) (C : Matrix ι ι ℝ) (x : ι → ℝ) : ℝ :=
  (2 * Real.pi) ^ (-(Fintype.card ι : ℝ) / 2) * C.det ^ (-(1 / 2) : ℝ) *
    Real.exp (-(1 / 2) * ((x - μ) ⬝ᵥ C⁻¹ *ᵥ (x - μ)))

/-- Means, covariances and probabilities of a mixture of `K + 1` normal distributions. -/
abbrev MixParams (ι : Type*) (K : ℕ) : Type _ :=
  (Fin (K + 1) → ι → ℝ) × (Fin (K + 1) → Matrix ι ι ℝ) × (Fin (K + 1) → ℝ)

/-- Covariances are positive definite, probabilities positive with sum one. -/
def IsMixture (θ : MixParams ι K) : Prop :=
  (∀ k, (θ.2.1 k).PosDef) ∧ (∀ k, 0 < θ.2.2 k) ∧ ∑ k, θ.2.2 k = 1

/-- The negative log likelihood of the samples under a mixture of normal distributions. -/
noncomputable def mixNll [Fintype N] (samples : N → ι → ℝ) (θ : MixParams ι K) : ℝ :=
  -∑ n, Real.log (∑ k, θ.2.2 k * gaussPdf (θ.1 k) (θ.2.1 k) (samples n))

/-- The parameters the notebook reads off a point `(S, v)`. -/
noncomputable def mogExtract
    (x : (Fin (K + 1) → Matrix (ι ⊕ Unit) (ι ⊕ Unit) ℝ) × (Fin K → ℝ)) : MixParams ι K :=
  (mogMean x.1, mogCov x.1, mogAlpha x.2)

section join
variable (μ : ι → ℝ) (C : Matrix ι ι ℝ) (s : ℝ)

/-- The matrix `[[C + s μ μᵀ, s μ], [s μᵀ, s]]`. -/
def mogJoin : Matrix (ι ⊕ Unit) (ι ⊕ Unit) ℝ :=
  fromBlocks (C + s • vecMulVec μ μ) (of fun i _ => s * μ i) (of fun _ i => s * μ i) (of fun _ _ => s)

omit [DecidableEq ι] in
theorem mogJoin_mulVec (a : ι → ℝ) (b : ℝ) :
    mogJoin μ C s *ᵥ Sum.elim a (fun _ => b) =
      Sum.elim (C *ᵥ a + (s * (μ ⬝ᵥ a + b)) • μ) fun _ => s * (μ ⬝ᵥ a + b) := by
  rw [mogJoin, fromBlocks_mulVec]
  funext x
  rcases x with i | u
  · simp only [Sum.elim_inl, Sum.elim_comp_inl, Sum.elim_comp_inr, Pi.add_apply, Pi.smul_apply,
      smul_eq_mul, add_mulVec, smul_mulVec, vecMulVec_mulVec]
    simp [mulVec, dotProduct]
    ring
  · simp only [Sum.elim_inr, Sum.elim_comp_inl, Sum.elim_comp_inr, Pi.add_apply]
    simp only [mulVec, dotProduct, of_apply, Finset.univ_unique, Finset.sum_const,
      Finset.card_singleton, one_smul, mul_add, Finset.mul_sum, mul_assoc]

omit [DecidableEq ι] in
theorem mogJoin_quad (a : ι → ℝ) (b : ℝ) :
    Sum.elim a (fun _ : Unit => b) ⬝ᵥ mogJoin μ C s *ᵥ Sum.elim a (fun _ => b) =
      a ⬝ᵥ C *ᵥ a + s * (μ ⬝ᵥ a + b) ^ 2 := by
  rw [mogJoin_mulVec, sumElim_dotProduct_sumElim, dotProduct_add, dotProduct_smul]
  simp only [dotProduct, Finset.univ_unique, Finset.sum_const, Finset.card_singleton, one_smul,
    smul_eq_mul]
  have : ∑ i, a i * μ i = ∑ i, μ i * a i := Finset.sum_congr rfl fun i _ => mul_comm _ _
  rw [this]
  ring

omit [Fintype ι] [DecidableEq ι] in
theorem mogJoin_transpose (hC : Cᵀ = C) : (mogJoin μ C s)ᵀ = mogJoin μ C s := by
  rw [mogJoin, fromBlocks_transpose]
  congr 1
  rw [transpose_add, hC, transpose_smul, transpose_vecMulVec]

omit [DecidableEq ι] in
theorem mogJoin_posDef {C : Matrix ι ι ℝ} {s : ℝ} (hC : C.PosDef) (hs : 0 < s) :
    (mogJoin μ C s).PosDef := by
  refine PosDef.of_dotProduct_mulVec_pos (mogJoin_transpose μ C s hC.1) fun x hx => ?_
  have e : x = Sum.elim (fun i => x (Sum.inl i)) fun _ : Unit => x (Sum.inr ()) := by
    funext y; rcases y with i | u <;> rfl
  rw [star_trivial, e, mogJoin_quad]
  by_cases ha : (fun i => x (Sum.inl i)) = 0
  · have hb : x (Sum.inr ()) ≠ 0 := fun hb => hx (by
      rw [e, ha, hb]; funext y; rcases y with i | u <;> rfl)
    rw [ha]
    simp only [zero_dotProduct, dotProduct_zero, zero_add]
    positivity
  · have := hC.dotProduct_mulVec_pos ha
    rw [star_trivial] at this
    positivity

theorem mogJoin_det : (mogJoin μ C s).det = s * C.det := by
  have : mogJoin μ C s = fromBlocks 1 (of fun i _ => μ i) 0 1 * fromBlocks C 0 0 (of fun _ _ => s) *
      fromBlocks 1 0 (of fun _ i => μ i) 1 := by
    rw [fromBlocks_multiply, fromBlocks_multiply, mogJoin]
    congr 1
    · ext i j
      simp [Matrix.mul_apply, vecMulVec_apply]
      ring
    · ext i j
      simp [Matrix.mul_apply, mul_comm]
    · ext i j
      simp [Matrix.mul_apply]
    · ext i j
      simp
  rw [this, det_mul, det_mul, det_fromBlocks_zero₂₁, det_fromBlocks_zero₁₂, det_fromBlocks_zero₁₂]
  simp
  ring

theorem mogJoin_inv_quad {C : Matrix ι ι ℝ} {s : ℝ} (hC : C.PosDef) (hs : 0 < s) (x : ι → ℝ) :
    Sum.elim x (fun _ : Unit => (1 : ℝ)) ⬝ᵥ (mogJoin μ C s)⁻¹ *ᵥ Sum.elim x (fun _ => 1) =
      (x - μ) ⬝ᵥ C⁻¹ *ᵥ (x - μ) + 1 / s := by
  have hu : IsUnit (mogJoin μ C s).det := (mogJoin_posDef μ hC hs).isUnit.map detMonoidHom
  have hv : IsUnit C.det := hC.isUnit.map detMonoidHom
  set w := C⁻¹ *ᵥ (x - μ) with hw
  have hCw : C *ᵥ w = x - μ := by rw [hw, mulVec_mulVec, mul_nonsing_inv _ hv, one_mulVec]
  have key : (mogJoin μ C s)⁻¹ *ᵥ Sum.elim x (fun _ => 1) =
      Sum.elim w fun _ => 1 / s - μ ⬝ᵥ w := by
    have : Sum.elim x (fun _ : Unit => (1 : ℝ)) =
        mogJoin μ C s *ᵥ Sum.elim w fun _ => 1 / s - μ ⬝ᵥ w := by
      rw [mogJoin_mulVec, hCw, add_sub_cancel, mul_one_div_cancel hs.ne', one_smul, sub_add_cancel]
    rw [this, mulVec_mulVec, nonsing_inv_mul _ hu, one_mulVec]
  rw [key, sumElim_dotProduct_sumElim, sub_dotProduct]
  simp [dotProduct]
  ring

end join

/-- The factor by which a component with corner entry `s` is weighted down. -/
noncomputable def mogWeight (s : ℝ) : ℝ := Real.exp (-(1 / 2) * (1 / s + Real.log s))

theorem mogWeight_pos (s : ℝ) : 0 < mogWeight s := Real.exp_pos _

/-- Moving the corner towards one increases the weight. -/
theorem mogWeight_lt {s t : ℝ} (hs : 0 < s) (ht : 0 < t) (hne : t ≠ s)
    (h : 0 ≤ (t - s) * (1 - t)) : mogWeight s < mogWeight t := by
  rw [mogWeight, mogWeight, Real.exp_lt_exp]
  have h1 : Real.log (t / s) < t / s - 1 :=
    Real.log_lt_sub_one_of_pos (div_pos ht hs) fun e => hne ((div_eq_one_iff_eq hs.ne').mp e)
  rw [Real.log_div ht.ne' hs.ne'] at h1
  have h2 : (t / s - 1) - (1 / s - 1 / t) = -((t - s) * (1 - t) / (s * t)) := by
    field_simp
    ring
  have h3 : 0 ≤ (t - s) * (1 - t) / (s * t) := div_nonneg h (mul_pos hs ht).le
  linarith

theorem mogWeight_le_one {s : ℝ} (hs : 0 < s) : mogWeight s ≤ mogWeight 1 := by
  by_cases h : (1 : ℝ) = s
  · rw [h]
  · exact (mogWeight_lt hs one_pos h (by simp)).le

theorem gaussPdf_pos (μ : ι → ℝ) {C : Matrix ι ι ℝ} (hC : C.PosDef) (x : ι → ℝ) :
    0 < gaussPdf μ C x := by
  have := hC.det_pos
  unfold gaussPdf
  positivity

theorem mogAlpha_pos (v : Fin K → ℝ) (k : Fin (K + 1)) : 0 < mogAlpha v k :=
  div_pos (Real.exp_pos _) (Finset.sum_pos (fun _ _ => Real.exp_pos _) ⟨0, Finset.mem_univ _⟩)

theorem mogAlpha_sum (v : Fin K → ℝ) : ∑ k, mogAlpha v k = 1 := by
  unfold mogAlpha
  rw [← Finset.sum_div]
  exact div_self (Finset.sum_pos (fun _ _ => Real.exp_pos _) ⟨0, Finset.mem_univ _⟩).ne'

/-- The constant factor between `q` and the density. -/
noncomputable def mogConst (ι : Type*) [Fintype ι] : ℝ := (2 * Real.pi) ^ ((Fintype.card ι : ℝ) / 2)

omit [DecidableEq ι] in
theorem mogConst_pos : 0 < mogConst ι := by
  unfold mogConst
  positivity

theorem mogLogQ_join {samples : N → ι → ℝ} {S : Fin (K + 1) → Matrix (ι ⊕ Unit) (ι ⊕ Unit) ℝ}
    {k : Fin (K + 1)} {μ : ι → ℝ} {C : Matrix ι ι ℝ} {s : ℝ} (hC : C.PosDef) (hs : 0 < s)
    (hS : S k = mogJoin μ C s) (n : N) :
    Real.exp (mogLogQ samples S k n) = mogConst ι * gaussPdf μ C (samples n) * mogWeight s := by
  have hd := hC.det_pos
  have e : ∑ i, mogY samples i n * ((S k)⁻¹ * mogY samples) i n =
      (samples n - μ) ⬝ᵥ C⁻¹ *ᵥ (samples n - μ) + 1 / s := by
    rw [← mogJoin_inv_quad μ hC hs (samples n), hS]
    have : (fun i => mogY samples i n) = Sum.elim (samples n) (fun _ : Unit => (1 : ℝ)) := by
      funext i; rfl
    rw [← this]
    rfl
  rw [mogLogQ, e, hS, mogJoin_det, abs_of_pos (mul_pos hs hd), Real.log_mul hs.ne' hd.ne',
    mogConst, gaussPdf, mogWeight, Real.rpow_def_of_pos hd, Real.rpow_def_of_pos (by positivity),
    Real.rpow_def_of_pos (by positivity), ← Real.exp_add, ← Real.exp_add, ← Real.exp_add,
    ← Real.exp_add]
  congr 1
  ring

/-- The corner entries, means and covariances of positive definite matrices. -/
def mogCorner (S : Fin (K + 1) → Matrix (ι ⊕ Unit) (ι ⊕ Unit) ℝ) (k : Fin (K + 1)) : ℝ :=
  S k (Sum.inr ()) (Sum.inr ())

noncomputable def mogSplitMean (S : Fin (K + 1) → Matrix (ι ⊕ Unit) (ι ⊕ Unit) ℝ)
    (k : Fin (K + 1)) (i : ι) : ℝ := S k (Sum.inl i) (Sum.inr ()) / mogCorner S k

noncomputable def mogSplitCov (S : Fin (K + 1) → Matrix (ι ⊕ Unit) (ι ⊕ Unit) ℝ)
    (k : Fin (K + 1)) : Matrix ι ι ℝ :=
  of fun i j => S k (Sum.inl i) (Sum.inl j) -
    S k (Sum.inl i) (Sum.inr ()) * S k (Sum.inl j) (Sum.inr ()) / mogCorner S k

section split
variable {S : Fin (K + 1) → Matrix (ι ⊕ Unit) (ι ⊕ Unit) ℝ} {k : Fin (K + 1)}

omit [Fintype ι] [DecidableEq ι] in
theorem mogCorner_pos (h : (S k).PosDef) : 0 < mogCorner S k := h.diag_pos

omit [Fintype ι] [DecidableEq ι] in
theorem mogSplit_join (h : (S k).PosDef) :
    S k = mogJoin (mogSplitMean S k) (mogSplitCov S k) (mogCorner S k) := by
  have hs := (mogCorner_pos h).ne'
  have sym : ∀ i j, S k i j = S k j i := fun i j => by
    have := congrFun (congrFun h.1 j) i
    simpa using this
  ext x y
  rcases x with i | u <;> rcases y with j | w
  · simp [mogJoin, mogSplitMean, mogSplitCov, vecMulVec_apply]
    field_simp
    ring
  · simp [mogJoin, mogSplitMean]
    field_simp
  · simp [mogJoin, mogSplitMean]
    rw [sym]
    field_simp
  · simp [mogJoin, mogCorner]

omit [DecidableEq ι] in
theorem mogSplit_posDef (h : (S k).PosDef) : (mogSplitCov S k).PosDef := by
  have sym : ∀ i j, S k i j = S k j i := fun i j => by
    have := congrFun (congrFun h.1 j) i
    simpa using this
  refine PosDef.of_dotProduct_mulVec_pos ?_ fun a ha => ?_
  · ext i j
    simp [mogSplitCov, sym (Sum.inl i) (Sum.inl j), mul_comm]
  · set x : ι ⊕ Unit → ℝ := Sum.elim a fun _ => -(mogSplitMean S k ⬝ᵥ a) with hx
    have hne : x ≠ 0 := fun e => ha (by
      funext i
      exact congrFun e (Sum.inl i))
    have := h.dotProduct_mulVec_pos hne
    rw [star_trivial, mogSplit_join h, hx, mogJoin_quad] at this
    rw [star_trivial]
    simpa using this

end split

section cost
variable [Fintype N] {samples : N → ι → ℝ}

theorem mogCost_join {μ : Fin (K + 1) → ι → ℝ} {C : Fin (K + 1) → Matrix ι ι ℝ}
    {s : Fin (K + 1) → ℝ} (hC : ∀ k, (C k).PosDef) (hs : ∀ k, 0 < s k) (v : Fin K → ℝ) :
    mogCost samples (fun k => mogJoin (μ k) (C k) (s k)) v = -∑ n, Real.log (∑ k,
      mogAlpha v k * (mogConst ι * gaussPdf (μ k) (C k) (samples n) * mogWeight (s k))) := by
  unfold mogCost mogLoglik
  congr 1
  refine Finset.sum_congr rfl fun n _ => congrArg Real.log (Finset.sum_congr rfl fun k _ => ?_)
  rw [Real.exp_add, Real.exp_log (mogAlpha_pos v k), mogLogQ_join (hC k) (hs k) rfl]

theorem mogTerm_pos {μ : ι → ℝ} {C : Matrix ι ι ℝ} (hC : C.PosDef) (s : ℝ) (v : Fin K → ℝ)
    (k : Fin (K + 1)) (x : ι → ℝ) :
    0 < mogAlpha v k * (mogConst ι * gaussPdf μ C x * mogWeight s) :=
  mul_pos (mogAlpha_pos v k) (mul_pos (mul_pos mogConst_pos (gaussPdf_pos μ hC x)) (mogWeight_pos s))

theorem mogCost_le {μ : Fin (K + 1) → ι → ℝ} {C : Fin (K + 1) → Matrix ι ι ℝ}
    {s t : Fin (K + 1) → ℝ} (hC : ∀ k, (C k).PosDef) (hs : ∀ k, 0 < s k) (ht : ∀ k, 0 < t k)
    (hw : ∀ k, mogWeight (s k) ≤ mogWeight (t k)) (v : Fin K → ℝ) :
    mogCost samples (fun k => mogJoin (μ k) (C k) (t k)) v ≤
      mogCost samples (fun k => mogJoin (μ k) (C k) (s k)) v := by
  rw [mogCost_join hC hs, mogCost_join hC ht, neg_le_neg_iff]
  refine Finset.sum_le_sum fun n _ => Real.log_le_log
    (Finset.sum_pos (fun k _ => mogTerm_pos (hC k) _ v k _) ⟨0, Finset.mem_univ _⟩)
    (Finset.sum_le_sum fun k _ => ?_)
  exact mul_le_mul_of_nonneg_left (mul_le_mul_of_nonneg_left (hw k)
    (mul_pos mogConst_pos (gaussPdf_pos _ (hC k) _)).le) (mogAlpha_pos v k).le

theorem mogCost_lt [Nonempty N] {μ : Fin (K + 1) → ι → ℝ} {C : Fin (K + 1) → Matrix ι ι ℝ}
    {s t : Fin (K + 1) → ℝ} (hC : ∀ k, (C k).PosDef) (hs : ∀ k, 0 < s k) (ht : ∀ k, 0 < t k)
    (hw : ∀ k, mogWeight (s k) ≤ mogWeight (t k)) {l : Fin (K + 1)}
    (hl : mogWeight (s l) < mogWeight (t l)) (v : Fin K → ℝ) :
    mogCost samples (fun k => mogJoin (μ k) (C k) (t k)) v <
      mogCost samples (fun k => mogJoin (μ k) (C k) (s k)) v := by
  rw [mogCost_join hC hs, mogCost_join hC ht, neg_lt_neg_iff]
  refine Finset.sum_lt_sum_of_nonempty Finset.univ_nonempty fun n _ => Real.log_lt_log
    (Finset.sum_pos (fun k _ => mogTerm_pos (hC k) _ v k _) ⟨0, Finset.mem_univ _⟩)
    (Finset.sum_lt_sum (fun k _ => ?_) ⟨l, Finset.mem_univ _, ?_⟩)
  · exact mul_le_mul_of_nonneg_left (mul_le_mul_of_nonneg_left (hw k)
      (mul_pos mogConst_pos (gaussPdf_pos _ (hC k) _)).le) (mogAlpha_pos v k).le
  · exact mul_lt_mul_of_pos_left (mul_lt_mul_of_pos_left hl
      (mul_pos mogConst_pos (gaussPdf_pos _ (hC l) _))) (mogAlpha_pos v l)

/-- The constant by which cost and negative log likelihood differ, per sample. -/
noncomputable def mogShift (ι : Type*) [Fintype ι] : ℝ :=
  1 / 2 - (Fintype.card ι : ℝ) / 2 * Real.log (2 * Real.pi)

theorem mogCost_one {μ : Fin (K + 1) → ι → ℝ} {C : Fin (K + 1) → Matrix ι ι ℝ}
    (hC : ∀ k, (C k).PosDef) (v : Fin K → ℝ) :
    mogCost samples (fun k => mogJoin (μ k) (C k) 1) v =
      mixNll samples (μ, C, mogAlpha v) + Fintype.card N * mogShift ι := by
  rw [mogCost_join hC (fun _ => one_pos), mixNll]
  have : ∀ n, Real.log (∑ k, mogAlpha v k *
      (mogConst ι * gaussPdf (μ k) (C k) (samples n) * mogWeight 1)) =
      Real.log (∑ k, mogAlpha v k * gaussPdf (μ k) (C k) (samples n)) - mogShift ι := fun n => by
    have e : ∑ k, mogAlpha v k * (mogConst ι * gaussPdf (μ k) (C k) (samples n) * mogWeight 1) =
        (∑ k, mogAlpha v k * gaussPdf (μ k) (C k) (samples n)) * (mogConst ι * mogWeight 1) := by
      rw [Finset.sum_mul]
      exact Finset.sum_congr rfl fun k _ => by ring
    rw [e, Real.log_mul (Finset.sum_pos (fun k _ => mul_pos (mogAlpha_pos v k)
      (gaussPdf_pos _ (hC k) _)) ⟨0, Finset.mem_univ _⟩).ne'
      (mul_pos mogConst_pos (mogWeight_pos 1)).ne', Real.log_mul mogConst_pos.ne'
      (mogWeight_pos 1).ne', mogConst, Real.log_rpow (by positivity), mogWeight, Real.log_exp,
      mogShift, Real.log_one]
    ring
  simp only [this, Finset.sum_sub_distrib, Finset.sum_const, Finset.card_univ, nsmul_eq_mul]
  ring

end cost

/-- The points of the manifold of the notebook. -/
def MogPoint (x : (Fin (K + 1) → Matrix (ι ⊕ Unit) (ι ⊕ Unit) ℝ) × (Fin K → ℝ)) : Prop :=
  ∀ k, (x.1 k).PosDef

/-- The lower right entries are one. -/
def UnitCorners (x : (Fin (K + 1) → Matrix (ι ⊕ Unit) (ι ⊕ Unit) ℝ) × (Fin K → ℝ)) : Prop :=
  ∀ k, x.1 k (Sum.inr ()) (Sum.inr ()) = 1

/-- The point that stands for a mixture. -/
noncomputable def mogEmbed (θ : MixParams ι K) :
    (Fin (K + 1) → Matrix (ι ⊕ Unit) (ι ⊕ Unit) ℝ) × (Fin K → ℝ) :=
  (fun k => mogJoin (θ.1 k) (θ.2.1 k) 1, fun k => Real.log (θ.2.2 k.castSucc / θ.2.2 (Fin.last K)))

/-- The mixture left when the weights of the components are disregarded. -/
noncomputable def mogReduce (x : (Fin (K + 1) → Matrix (ι ⊕ Unit) (ι ⊕ Unit) ℝ) × (Fin K → ℝ)) :
    MixParams ι K := (mogSplitMean x.1, mogSplitCov x.1, mogAlpha x.2)

section correspondence
variable {x : (Fin (K + 1) → Matrix (ι ⊕ Unit) (ι ⊕ Unit) ℝ) × (Fin K → ℝ)} {θ : MixParams ι K}

omit [Fintype ι] [DecidableEq ι] in
theorem mogReduce_eq (h : UnitCorners x) : mogReduce x = mogExtract x := by
  have e : ∀ k, mogCorner x.1 k = 1 := h
  refine Prod.ext ?_ (Prod.ext ?_ rfl)
  · funext k i
    simp [mogReduce, mogExtract, mogSplitMean, mogMean, e]
  · funext k
    ext i j
    simp [mogReduce, mogExtract, mogSplitCov, mogCov, mogMean, e]

omit [DecidableEq ι] in
theorem mogReduce_mixture (h : MogPoint x) : IsMixture (mogReduce x) :=
  ⟨fun k => mogSplit_posDef (h k), mogAlpha_pos x.2, mogAlpha_sum x.2⟩

omit [DecidableEq ι] in
theorem mogEmbed_point (h : IsMixture θ) : MogPoint (mogEmbed θ) := fun k =>
  mogJoin_posDef _ (h.1 k) one_pos

omit [Fintype ι] [DecidableEq ι] in
theorem mogEmbed_corners (θ : MixParams ι K) : UnitCorners (mogEmbed θ) := fun k => by
  simp [mogEmbed, mogJoin]

omit [Fintype ι] [DecidableEq ι] in
theorem mogAlpha_embed (h : ∀ k, 0 < θ.2.2 k) (h1 : ∑ k, θ.2.2 k = 1) :
    mogAlpha (mogEmbed θ).2 = θ.2.2 := by
  have hl := h (Fin.last K)
  have e : ∀ k, Real.exp (mogNu (mogEmbed θ).2 k) = θ.2.2 k / θ.2.2 (Fin.last K) := fun k => by
    refine Fin.lastCases ?_ (fun k => ?_) k
    · simp [mogNu, hl.ne']
    · simp only [mogNu, Fin.snoc_castSucc, mogEmbed]
      exact Real.exp_log (div_pos (h _) hl)
  funext k
  rw [mogAlpha]
  simp only [e]
  rw [← Finset.sum_div, h1]
  field_simp

omit [Fintype ι] [DecidableEq ι] in
theorem mogExtract_embed (h : ∀ k, 0 < θ.2.2 k) (h1 : ∑ k, θ.2.2 k = 1) :
    mogExtract (mogEmbed θ) = θ := by
  refine Prod.ext ?_ (Prod.ext ?_ (mogAlpha_embed h h1))
  · funext k i
    simp [mogExtract, mogEmbed, mogMean, mogJoin]
  · funext k
    ext i j
    simp [mogExtract, mogEmbed, mogCov, mogMean, mogJoin, vecMulVec_apply]

omit [Fintype ι] [DecidableEq ι] in
theorem mogEmbed_reduce (h : MogPoint x) (h1 : UnitCorners x) : mogEmbed (mogExtract x) = x := by
  rw [← mogReduce_eq h1]
  refine Prod.ext ?_ ?_
  · funext k
    have := mogSplit_join (h k)
    have e : mogCorner x.1 k = 1 := h1 k
    rw [e] at this
    exact this.symm
  · funext k
    simp only [mogEmbed, mogReduce, mogAlpha]
    rw [div_div_div_cancel_right₀ (Finset.sum_pos (fun _ _ => Real.exp_pos _)
      ⟨0, Finset.mem_univ _⟩).ne', Real.log_div (Real.exp_ne_zero _) (Real.exp_ne_zero _)]
    simp [mogNu]

variable [Fintype N] (samples : N → ι → ℝ)

theorem mogCost_embed (h : IsMixture θ) :
    mogCost samples (mogEmbed θ).1 (mogEmbed θ).2 =
      mixNll samples θ + Fintype.card N * mogShift ι := by
  have := mogCost_one (samples := samples) (μ := θ.1) h.1 (mogEmbed θ).2
  rw [mogAlpha_embed h.2.1 h.2.2] at this
  exact this

theorem mogCost_reduce (h : MogPoint x) :
    mixNll samples (mogReduce x) + Fintype.card N * mogShift ι ≤ mogCost samples x.1 x.2 := by
  have h1 := mogCost_one (samples := samples) (μ := mogSplitMean x.1)
    (fun k => mogSplit_posDef (h k)) x.2
  have h2 : x.1 = fun k => mogJoin (mogSplitMean x.1 k) (mogSplitCov x.1 k) (mogCorner x.1 k) :=
    funext fun k => mogSplit_join (h k)
  refine h1.symm.le.trans ?_
  conv_rhs => rw [h2]
  exact mogCost_le (fun k => mogSplit_posDef (h k)) (fun k => mogCorner_pos (h k))
    (fun _ => one_pos) (fun k => mogWeight_le_one (mogCorner_pos (h k))) x.2

/-- **C136**: every mixture is read off a point, whose cost is the negative log likelihood up to a
constant. -/
theorem C136_likelihood (h : IsMixture θ) : ∃ x, MogPoint x ∧ UnitCorners x ∧ mogExtract x = θ ∧
    mogCost samples x.1 x.2 = mixNll samples θ +
      Fintype.card N * (1 / 2 - (Fintype.card ι : ℝ) / 2 * Real.log (2 * Real.pi)) :=
  ⟨mogEmbed θ, mogEmbed_point h, mogEmbed_corners θ, mogExtract_embed h.2.1 h.2.2,
    mogCost_embed samples h⟩

/-- **C136**: at every point with unit corners the cost is, up to the same constant, the negative log
likelihood of the parameters read off. -/
theorem C136_extract (h : MogPoint x) (h1 : UnitCorners x) : IsMixture (mogExtract x) ∧
    mogCost samples x.1 x.2 = mixNll samples (mogExtract x) +
      Fintype.card N * (1 / 2 - (Fintype.card ι : ℝ) / 2 * Real.log (2 * Real.pi)) := by
  have hm : IsMixture (mogExtract x) := mogReduce_eq h1 ▸ mogReduce_mixture h
  refine ⟨hm, ?_⟩
  have := mogCost_embed samples hm
  rw [mogEmbed_reduce h h1] at this
  exact this

/-- Moves all corners towards one, keeping means and covariances. -/
noncomputable def mogMove (x : (Fin (K + 1) → Matrix (ι ⊕ Unit) (ι ⊕ Unit) ℝ) × (Fin K → ℝ)) (ε : ℝ) :
    (Fin (K + 1) → Matrix (ι ⊕ Unit) (ι ⊕ Unit) ℝ) × (Fin K → ℝ) :=
  (fun k => mogJoin (mogSplitMean x.1 k) (mogSplitCov x.1 k)
    (mogCorner x.1 k + ε * (1 - mogCorner x.1 k)), x.2)

omit [Fintype ι] [DecidableEq ι] in
theorem mogMove_zero (h : MogPoint x) : mogMove x 0 = x := by
  refine Prod.ext (funext fun k => ?_) rfl
  simp only [mogMove, zero_mul, add_zero]
  exact (mogSplit_join (h k)).symm

omit [Fintype ι] [DecidableEq ι] in
theorem mogMove_corner (h : MogPoint x) {ε : ℝ} (h0 : 0 ≤ ε) (h1 : ε ≤ 1) (k : Fin (K + 1)) :
    0 < mogCorner x.1 k + ε * (1 - mogCorner x.1 k) := by
  have := mogCorner_pos (h k)
  rcases h1.lt_or_eq with h1 | rfl
  · nlinarith
  · linarith

omit [DecidableEq ι] in
theorem mogMove_point (h : MogPoint x) {ε : ℝ} (h0 : 0 ≤ ε) (h1 : ε ≤ 1) : MogPoint (mogMove x ε) :=
  fun k => mogJoin_posDef _ (mogSplit_posDef (h k)) (mogMove_corner h h0 h1 k)

theorem mogMove_cost [Nonempty N] (h : MogPoint x) {ε : ℝ} (h0 : 0 < ε) (h1 : ε ≤ 1)
    (hne : ¬ UnitCorners x) :
    mogCost samples (mogMove x ε).1 (mogMove x ε).2 < mogCost samples x.1 x.2 := by
  have h2 : x.1 = fun k => mogJoin (mogSplitMean x.1 k) (mogSplitCov x.1 k) (mogCorner x.1 k) :=
    funext fun k => mogSplit_join (h k)
  obtain ⟨l, hl⟩ := not_forall.mp hne
  have hl' : mogCorner x.1 l ≠ 1 := hl
  have sg : ∀ k, 0 ≤ (mogCorner x.1 k + ε * (1 - mogCorner x.1 k) - mogCorner x.1 k) *
      (1 - (mogCorner x.1 k + ε * (1 - mogCorner x.1 k))) := fun k => by
    have e : (mogCorner x.1 k + ε * (1 - mogCorner x.1 k) - mogCorner x.1 k) *
      (1 - (mogCorner x.1 k + ε * (1 - mogCorner x.1 k))) =
        ε * (1 - ε) * (1 - mogCorner x.1 k) ^ 2 := by ring
    rw [e]
    exact mul_nonneg (mul_nonneg h0.le (by linarith)) (sq_nonneg _)
  have lt : ∀ k, mogCorner x.1 k ≠ 1 → mogWeight (mogCorner x.1 k) <
      mogWeight (mogCorner x.1 k + ε * (1 - mogCorner x.1 k)) := fun k hk =>
    mogWeight_lt (mogCorner_pos (h k)) (mogMove_corner h h0.le h1 k) (fun e => by
      have : ε * (1 - mogCorner x.1 k) = 0 := by linarith
      rcases mul_eq_zero.mp this with e | e
      · exact h0.ne' e
      · exact hk (by linarith)) (sg k)
  conv_rhs => rw [h2]
  refine mogCost_lt (fun k => mogSplit_posDef (h k)) (fun k => mogCorner_pos (h k))
    (fun k => mogMove_corner h h0.le h1 k) (fun k => ?_) (lt l hl') x.2
  by_cases hk : mogCorner x.1 k = 1
  · rw [hk]; simp
  · exact (lt k hk).le

/-- **C136**: the minimisers of the cost are the points with unit corners whose mixture maximises the
likelihood. -/
theorem C136_minimisers [Nonempty N] (h : MogPoint x) :
    IsMinOn (fun y => mogCost samples y.1 y.2) {y | MogPoint y} x ↔
      UnitCorners x ∧ IsMinOn (mixNll samples) {θ | IsMixture θ} (mogExtract x) := by
  constructor
  · intro hmin
    have hc : UnitCorners x := by
      by_contra hne
      have h1 := mogMove_cost samples h one_pos le_rfl hne
      exact absurd (isMinOn_iff.mp hmin _ (mogMove_point h zero_le_one le_rfl)) (not_le.mpr h1)
    refine ⟨hc, isMinOn_iff.mpr fun θ hθ => ?_⟩
    have h1 := isMinOn_iff.mp hmin _ (mogEmbed_point hθ)
    simp only [mogCost_embed samples hθ] at h1
    rw [(C136_extract samples h hc).2] at h1
    exact le_of_add_le_add_right h1
  · rintro ⟨hc, hmin⟩
    refine isMinOn_iff.mpr fun y hy => ?_
    have h1 := isMinOn_iff.mp hmin _ (mogReduce_mixture hy)
    have h2 := mogCost_reduce samples hy
    change mogCost samples x.1 x.2 ≤ mogCost samples y.1 y.2
    rw [(C136_extract samples h hc).2]
    rw [mogShift] at h2
    linarith

omit [Fintype ι] [DecidableEq ι] in
theorem mogMove_continuous :
    Continuous (mogMove x) := by
  unfold mogMove
  refine Continuous.prodMk (continuous_pi fun k => ?_) continuous_const
  unfold mogJoin
  refine Continuous.matrix_fromBlocks ?_ ?_ ?_ ?_ <;> fun_prop

omit [Fintype ι] [DecidableEq ι] in
theorem mogEmbed_continuousAt (h : ∀ k, 0 < θ.2.2 k) : ContinuousAt (mogEmbed (ι := ι) (K := K)) θ := by
  unfold mogEmbed
  refine ContinuousAt.prodMk (Continuous.continuousAt (continuous_pi fun k => ?_))
    (continuousAt_pi.mpr fun k => ?_)
  · unfold mogJoin vecMulVec
    refine Continuous.matrix_fromBlocks ?_ ?_ ?_ ?_ <;> fun_prop
  · refine ContinuousAt.log (ContinuousAt.div (by fun_prop) (by fun_prop) (h _).ne')
      (div_pos (h _) (h _)).ne'

omit [Fintype ι] [DecidableEq ι] in
theorem mogReduce_continuousAt (h : MogPoint x) : ContinuousAt (mogReduce (ι := ι) (K := K)) x := by
  have hk : ∀ k, mogCorner x.1 k ≠ 0 := fun k => (mogCorner_pos (h k)).ne'
  unfold mogReduce
  refine ContinuousAt.prodMk (continuousAt_pi.mpr fun k => continuousAt_pi.mpr fun i => ?_)
    (ContinuousAt.prodMk (continuousAt_pi.mpr fun k => continuousAt_pi.mpr fun i =>
      continuousAt_pi.mpr fun j => ?_) ?_)
  · unfold mogSplitMean
    refine ContinuousAt.div ?_ ?_ (hk k)
    · fun_prop
    · unfold mogCorner; fun_prop
  · unfold mogSplitCov
    simp only [of_apply]
    refine ContinuousAt.sub (by fun_prop) (ContinuousAt.div (by fun_prop) ?_ (hk k))
    unfold mogCorner; fun_prop
  · refine Continuous.continuousAt (continuous_pi fun k => ?_)
    unfold mogAlpha
    have hc : ∀ l, Continuous fun a : (Fin (K + 1) → Matrix (ι ⊕ Unit) (ι ⊕ Unit) ℝ) × (Fin K → ℝ) =>
        mogNu a.2 l := fun l => by
      refine Fin.lastCases ?_ (fun l => ?_) l
      · simp only [mogNu, Fin.snoc_last]; fun_prop
      · simp only [mogNu, Fin.snoc_castSucc]; fun_prop
    exact Continuous.div (hc k).rexp (continuous_finsetSum _ fun l _ => (hc l).rexp) fun a =>
      (Finset.sum_pos (fun _ _ => Real.exp_pos _) ⟨0, Finset.mem_univ _⟩).ne'

/-- **C136**: the local minimisers of the cost are the points with unit corners whose mixture is a
local maximiser of the likelihood. -/
theorem C136_local_minimisers [Nonempty N] (h : MogPoint x) :
    IsLocalMinOn (fun y => mogCost samples y.1 y.2) {y | MogPoint y} x ↔
      UnitCorners x ∧ IsLocalMinOn (mixNll samples) {θ | IsMixture θ} (mogExtract x) := by
  constructor
  · intro hmin
    have hmin' : ∀ᶠ y in 𝓝[{y | MogPoint y}] x,
      mogCost samples x.1 x.2 ≤ mogCost samples y.1 y.2 := hmin
    have hc : UnitCorners x := by
      by_contra hne
      have ht : Tendsto (mogMove x) (𝓝[>] 0) (𝓝[{y | MogPoint y}] x) := by
        refine tendsto_nhdsWithin_iff.mpr ⟨?_, ?_⟩
        · have := mogMove_continuous (x := x).tendsto 0
          rw [mogMove_zero h] at this
          exact this.mono_left nhdsWithin_le_nhds
        · filter_upwards [Ioc_mem_nhdsGT (one_pos (α := ℝ))] with ε hε
          exact mogMove_point h hε.1.le hε.2
      obtain ⟨ε, h1, h2⟩ := ((ht.eventually hmin').and
        (Ioc_mem_nhdsGT (one_pos (α := ℝ)))).exists
      exact absurd h1 (not_le.mpr (mogMove_cost samples h h2.1 h2.2 hne))
    obtain ⟨hm, he⟩ := C136_extract samples h hc
    refine ⟨hc, ?_⟩
    have ht : Tendsto mogEmbed (𝓝[{θ | IsMixture θ}] (mogExtract x)) (𝓝[{y | MogPoint y}] x) := by
      refine tendsto_nhdsWithin_iff.mpr ⟨?_, ?_⟩
      · have := (mogEmbed_continuousAt hm.2.1).tendsto
        rw [mogEmbed_reduce h hc] at this
        exact this.mono_left nhdsWithin_le_nhds
      · filter_upwards [self_mem_nhdsWithin] with θ hθ
        exact mogEmbed_point hθ
    change ∀ᶠ θ in 𝓝[{θ | IsMixture θ}] (mogExtract x), _
    filter_upwards [ht.eventually hmin', self_mem_nhdsWithin] with θ h1 hθ
    rw [mogCost_embed samples hθ, he] at h1
    exact le_of_add_le_add_right h1
  · rintro ⟨hc, hmin⟩
    obtain ⟨hm, he⟩ := C136_extract samples h hc
    have ht : Tendsto mogReduce (𝓝[{y | MogPoint y}] x) (𝓝[{θ | IsMixture θ}] (mogExtract x)) := by
      refine tendsto_nhdsWithin_iff.mpr ⟨?_, ?_⟩
      · have := (mogReduce_continuousAt h).tendsto
        rw [mogReduce_eq hc] at this
        exact this.mono_left nhdsWithin_le_nhds
      · filter_upwards [self_mem_nhdsWithin] with y hy
        exact mogReduce_mixture hy
    have hmin' : ∀ᶠ θ in 𝓝[{θ | IsMixture θ}] (mogExtract x),
      mixNll samples (mogExtract x) ≤ mixNll samples θ := hmin
    have fin : ∀ᶠ y in 𝓝[{y | MogPoint y}] x,
        mogCost samples x.1 x.2 ≤ mogCost samples y.1 y.2 := by
      filter_upwards [ht.eventually hmin', self_mem_nhdsWithin] with y h1 hy
      have h2 := mogCost_reduce samples hy
      rw [he]
      rw [mogShift] at h2
      linarith
    exact fin

end correspondence

section collapse
variable [Fintype N] (samples : N → ι → ℝ)

/-- The mixture whose first component sits on one sample with variance `t`. -/
noncomputable def collapsing (n : N) (t : ℝ) : MixParams ι (K + 1) :=
  (fun k => if k = 0 then samples n else 0, fun k => if k = 0 then t • 1 else 1,
    fun _ => 1 / (K + 2 : ℝ))

omit [Fintype N] [Fintype ι] in
theorem collapsing_mixture (n : N) {t : ℝ} (ht : 0 < t) :
    IsMixture (collapsing (K := K) samples n t) := by
  refine ⟨fun k => ?_, fun k => ?_, ?_⟩
  · simp only [collapsing]
    split
    · exact PosDef.one.smul ht
    · exact PosDef.one
  · simp only [collapsing]
    positivity
  · simp only [collapsing, Finset.sum_const, Finset.card_univ, Fintype.card_fin, nsmul_eq_mul]
    push_cast
    have : (K : ℝ) + 2 ≠ 0 := by positivity
    rw [show (K : ℝ) + 1 + 1 = K + 2 by ring]
    field_simp

/-- **C136**: with two components or more the likelihood, and with it the cost, is unbounded: one
component collapses onto a sample. -/
theorem C136_collapse [Nonempty ι] [Nonempty N] (B : ℝ) :
    (∃ θ : MixParams ι (K + 1), IsMixture θ ∧ mixNll samples θ < B) ∧
      ∃ x : (Fin (K + 1 + 1) → Matrix (ι ⊕ Unit) (ι ⊕ Unit) ℝ) × (Fin (K + 1) → ℝ),
        MogPoint x ∧ mogCost samples x.1 x.2 < B := by
  classical
  have key : ∀ B, ∃ θ : MixParams ι (K + 1), IsMixture θ ∧ mixNll samples θ < B := by
    intro B
    obtain ⟨n⟩ := ‹Nonempty N›
    set p : ℝ := 1 / (K + 2 : ℝ) with hp
    have hp0 : 0 < p := by rw [hp]; positivity
    set c : ℝ := (2 * Real.pi) ^ (-(Fintype.card ι : ℝ) / 2) with hc
    have hc0 : 0 < c := by rw [hc]; positivity
    have hd : (0 : ℝ) < Fintype.card ι := by exact_mod_cast Fintype.card_pos
    set A : ℝ := -Real.log (p * c) -
      ∑ j ∈ Finset.univ.erase n, Real.log (p * gaussPdf 0 1 (samples j)) with hA
    set t : ℝ := Real.exp (2 * (B - A - 1) / Fintype.card ι) with ht
    have ht0 : 0 < t := Real.exp_pos _
    have hm := collapsing_mixture (K := K) samples n ht0
    refine ⟨_, hm, ?_⟩
    have pos : ∀ k j, 0 < (collapsing (K := K) samples n t).2.2 k *
        gaussPdf ((collapsing (K := K) samples n t).1 k) ((collapsing (K := K) samples n t).2.1 k)
          (samples j) := fun k j => mul_pos (hm.2.1 k) (gaussPdf_pos _ (hm.1 k) _)
    have first : Real.log (p * c) - (Fintype.card ι : ℝ) / 2 * Real.log t ≤
        Real.log (∑ k, (collapsing (K := K) samples n t).2.2 k *
        gaussPdf ((collapsing (K := K) samples n t).1 k) ((collapsing (K := K) samples n t).2.1 k)
          (samples n)) := by
      have h1 := Finset.single_le_sum (f := fun k => (collapsing (K := K) samples n t).2.2 k *
        gaussPdf ((collapsing (K := K) samples n t).1 k) ((collapsing (K := K) samples n t).2.1 k)
          (samples n)) (fun k _ => (pos k n).le) (Finset.mem_univ 0)
      refine le_trans (le_of_eq ?_) (Real.log_le_log (pos 0 n) h1)
      simp only [collapsing, if_true, gaussPdf, sub_self, mulVec_zero, dotProduct_zero, mul_zero,
        Real.exp_zero, mul_one, det_smul, det_one]
      rw [← hp, ← hc, ← mul_assoc, Real.log_mul (mul_pos hp0 hc0).ne' (by positivity),
        Real.log_rpow (by positivity), Real.log_pow]
      ring
    have rest : ∀ j, Real.log (p * gaussPdf 0 1 (samples j)) ≤
        Real.log (∑ k, (collapsing (K := K) samples n t).2.2 k *
        gaussPdf ((collapsing (K := K) samples n t).1 k) ((collapsing (K := K) samples n t).2.1 k)
          (samples j)) := fun j => by
      have h1 := Finset.single_le_sum (f := fun k => (collapsing (K := K) samples n t).2.2 k *
        gaussPdf ((collapsing (K := K) samples n t).1 k) ((collapsing (K := K) samples n t).2.1 k)
          (samples j)) (fun k _ => (pos k j).le) (Finset.mem_univ 1)
      refine le_trans (le_of_eq ?_) (Real.log_le_log (pos 1 j) h1)
      simp only [collapsing, one_ne_zero, if_false]
      rw [← hp]
    have hlog : Real.log t = 2 * (B - A - 1) / Fintype.card ι := by rw [ht, Real.log_exp]
    rw [mixNll, ← Finset.add_sum_erase _ _ (Finset.mem_univ n)]
    have hsum := Finset.sum_le_sum fun j (_ : j ∈ Finset.univ.erase n) => rest j
    have e : (Fintype.card ι : ℝ) / 2 * Real.log t = B - A - 1 := by
      rw [hlog]; field_simp
    rw [e] at first
    linarith
  refine ⟨key B, ?_⟩
  obtain ⟨θ, hθ, hlt⟩ := key (B - Fintype.card N * mogShift ι)
  refine ⟨mogEmbed θ, mogEmbed_point hθ, ?_⟩
  rw [mogCost_embed samples hθ]
  linarith

end collapse

/-- The negative log likelihood of the samples `-1` and `1` under one normal distribution. -/
theorem mixNll_pair {θ : MixParams Unit 0} (h : IsMixture θ) :
    mixNll (fun (b : Bool) (_ : Unit) => if b then (1 : ℝ) else -1) θ =
      Real.log (2 * Real.pi) + (Real.log (θ.2.1 0 () ()) +
        (1 + θ.1 0 () ^ 2) / θ.2.1 0 () ()) := by
  have hσ : 0 < θ.2.1 0 () () := (h.1 0).diag_pos
  have hπ : θ.2.2 0 = 1 := by simpa using h.2.2
  have hdet : (θ.2.1 0).det = θ.2.1 0 () () := by simp
  have hinv : (θ.2.1 0)⁻¹ () () = (θ.2.1 0 () ())⁻¹ := by
    rw [inv_def, hdet, adjugate_subsingleton]
    simp
  have hp : (0 : ℝ) < 2 * Real.pi := by positivity
  have hg : ∀ x : Unit → ℝ, Real.log (gaussPdf (θ.1 0) (θ.2.1 0) x) =
      -(1 / 2) * Real.log (2 * Real.pi) - 1 / 2 * Real.log (θ.2.1 0 () ()) -
        1 / 2 * ((x () - θ.1 0 ()) ^ 2 / θ.2.1 0 () ()) := fun x => by
    rw [gaussPdf, hdet, Real.log_mul (by positivity) (Real.exp_ne_zero _), Real.log_mul
      (by positivity) (by positivity), Real.log_rpow hp, Real.log_rpow hσ, Real.log_exp]
    simp [dotProduct, mulVec, hinv]
    field_simp
    ring
  rw [mixNll]
  simp only [Fin.sum_univ_succ, Finset.univ_eq_empty, Finset.sum_empty, add_zero, hπ, one_mul,
    Fintype.sum_bool, hg]
  field_simp
  simp
  ring

/-- A point that satisfies both sides of `C136_minimisers`: the standard normal distribution fits the
samples `-1` and `1` best. -/
example : ∃ x : (Fin 1 → Matrix (Unit ⊕ Unit) (Unit ⊕ Unit) ℝ) × (Fin 0 → ℝ), MogPoint x ∧
    IsMinOn (fun y => mogCost (fun (b : Bool) (_ : Unit) => if b then (1 : ℝ) else -1) y.1 y.2)
      {y | MogPoint y} x := by
  have h0 : IsMixture ((fun _ _ => 0, fun _ => 1, fun _ => 1) : MixParams Unit 0) :=
    ⟨fun _ => PosDef.one, fun _ => one_pos, by simp⟩
  refine ⟨_, mogEmbed_point h0, (C136_minimisers _ (mogEmbed_point h0)).mpr
    ⟨mogEmbed_corners _, ?_⟩⟩
  rw [mogExtract_embed h0.2.1 h0.2.2]
  refine isMinOn_iff.mpr fun θ hθ => ?_
  rw [mixNll_pair h0, mixNll_pair hθ]
  have hσ : 0 < θ.2.1 0 () () := (hθ.1 0).diag_pos
  have h1 := Real.log_le_sub_one_of_pos (inv_pos.mpr hσ)
  rw [Real.log_inv] at h1
  have h2 : (1 + θ.1 0 () ^ 2) / θ.2.1 0 () () = (θ.2.1 0 () ())⁻¹ + θ.1 0 () ^ 2 / θ.2.1 0 () () := by
    field_simp
  have h3 : 0 ≤ θ.1 0 () ^ 2 / θ.2.1 0 () () := by positivity
  rw [h2]
  simp
  linarith

end Verif.Geo.Examples
