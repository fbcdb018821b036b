/-
C137: geodesic convexity of the cost of examples/notebooks/mixture_of_gaussians.py.
-/
import Mathlib.Analysis.Convex.SpecificFunctions.Basic
import Verif.Geo.Props.Mixture
import Verif.Geo.Props.PositiveDefinite

namespace Verif.Geo.Examples
open Matrix
open scoped BigOperators

section geodesic
variable {m : Type*} [Fintype m] [DecidableEq m] {P V : Matrix m m ℝ}

theorem quad_geodesic (hP : P.PosDef) (hV : Vᴴ = V) (y : m → ℝ) :
    ∃ c w : m → ℝ, (∀ i, 0 ≤ c i) ∧ ∀ t : ℝ,
      y ⬝ᵥ (P * NormedSpace.exp (P⁻¹ * (t • V)))⁻¹ *ᵥ y = ∑ i, c i * Real.exp (t * w i) := by
  obtain ⟨C, hC, hu⟩ := exists_factor hP
  obtain ⟨w, v, h⟩ := exists_isEigh (A := whiten C V) (whiten_herm hV)
  set z := vᴴ *ᵥ (C⁻¹ *ᵥ y) with hz
  refine ⟨fun i => z i ^ 2, fun i => -w i, fun i => sq_nonneg _, fun t => ?_⟩
  have ht : IsEigh (whiten C (t • V)) (fun i => t * w i) v := by
    refine ⟨h.orth, ?_⟩
    rw [whiten_smul, h.prod]
    have : (diagonal fun i => ((t * w i : ℝ) : ℝ)) = t • diagonal fun i => ((w i : ℝ) : ℝ) := by
      ext i j
      by_cases hij : i = j
      · subst hij; simp
      · simp [hij]
    simp only [RCLike.ofReal_real_eq_id, id_eq] at this ⊢
    rw [this, Matrix.mul_smul, Matrix.smul_mul]
  have hinv : (P * NormedSpace.exp (P⁻¹ * (t • V)))⁻¹ =
      (C⁻¹)ᴴ * (v * diagonal (fun i => Real.exp (t * -w i)) * vᴴ) * C⁻¹ := by
    rw [exp_solve hu hC, exp_spectral ht, spectral]
    refine inv_eq_right_inv ?_
    have d1 : diagonal (fun i => ((Real.exp (t * w i) : ℝ) : ℝ)) *
        diagonal (fun i => Real.exp (t * -w i)) = 1 := by
      rw [diagonal_mul_diagonal, ← diagonal_one]
      congr 1
      funext i
      rw [← Real.exp_add]
      simp
    simp only [RCLike.ofReal_real_eq_id, id_eq]
    calc C * (v * diagonal (fun i => Real.exp (t * w i)) * vᴴ) * Cᴴ *
          ((C⁻¹)ᴴ * (v * diagonal (fun i => Real.exp (t * -w i)) * vᴴ) * C⁻¹) =
        C * (v * diagonal (fun i => Real.exp (t * w i)) * (vᴴ * (Cᴴ * (C⁻¹)ᴴ) * v) *
          diagonal (fun i => Real.exp (t * -w i)) * vᴴ) * C⁻¹ := by
          simp only [Matrix.mul_assoc]
      _ = C * (v * (diagonal (fun i => Real.exp (t * w i)) *
          diagonal (fun i => Real.exp (t * -w i))) * vᴴ) * C⁻¹ := by
          rw [mul_invH hu, Matrix.mul_one, h.orth, Matrix.mul_one]
          simp only [Matrix.mul_assoc]
      _ = 1 := by
          have : diagonal (fun i => Real.exp (t * w i)) *
            diagonal (fun i => Real.exp (t * -w i)) = 1 := d1
          rw [this, Matrix.mul_one, h.orth', Matrix.mul_one, mul_inv' hu]
  have e1 : (C⁻¹)ᴴ * (v * diagonal (fun i => Real.exp (t * -w i)) * vᴴ) * C⁻¹ =
      (vᴴ * C⁻¹)ᵀ * diagonal (fun i => Real.exp (t * -w i)) * (vᴴ * C⁻¹) := by
    rw [transpose_mul, conjTranspose_eq_transpose_of_trivial, conjTranspose_eq_transpose_of_trivial,
      transpose_transpose]
    simp only [Matrix.mul_assoc]
  have e2 : (vᴴ * C⁻¹) *ᵥ y = z := by rw [hz, mulVec_mulVec]
  rw [hinv, e1, ← mulVec_mulVec, ← mulVec_mulVec, e2, dotProduct_mulVec, vecMul_transpose, e2]
  simp only [dotProduct, mulVec_diagonal]
  exact Finset.sum_congr rfl fun i _ => by ring

theorem logdet_geodesic (hP : P.PosDef) (hV : Vᴴ = V) : ∃ a b : ℝ, ∀ t : ℝ,
    Real.log |(P * NormedSpace.exp (P⁻¹ * (t • V))).det| = a + t * b := by
  obtain ⟨C, hC, hu⟩ := exists_factor hP
  refine ⟨Real.log |P.det|, (whiten C V).trace, fun t => ?_⟩
  have hs : (t • V)ᴴ = t • V := by rw [conjTranspose_smul, hV, star_trivial]
  have hd := det_exp_herm (whiten_herm (C := C) hs)
  simp only [RCLike.ofReal_real_eq_id, id_eq, RCLike.re_to_real] at hd
  rw [exp_solve hu hC, det_mul_right_comm, hC, det_mul, hd, abs_mul, Real.log_mul
    (abs_pos.mpr hP.det_pos.ne').ne' (abs_pos.mpr (Real.exp_ne_zero _)).ne', abs_of_pos
    (Real.exp_pos _), Real.log_exp, whiten_smul, trace_smul, smul_eq_mul]

end geodesic

variable {ι N : Type*} [Fintype ι] [DecidableEq ι] {K : ℕ} (samples : N → ι → ℝ)

/-- Minus `log_q` is convex along geodesics. -/
theorem mogLogQ_convex {P V : Stack (Fin (K + 1)) (ι ⊕ Unit) (ι ⊕ Unit) ℝ} (hP : PDPoint P)
    (hV : HermStack V) (k : Fin (K + 1)) (n : N) :
    ConvexOn ℝ Set.univ fun t : ℝ => -mogLogQ samples (pdExp P (t • V)) k n := by
  obtain ⟨c, w, hc, h1⟩ := quad_geodesic (hP k) (hV.k k) fun i => mogY samples i n
  obtain ⟨a, b, h2⟩ := logdet_geodesic (hP k) (hV.k k)
  have e : (fun t : ℝ => -mogLogQ samples (pdExp P (t • V)) k n) =
      fun t => (∑ i, (1 / 2 * c i) * Real.exp (t * w i)) + (1 / 2 * a + t * (1 / 2 * b)) := by
    funext t
    have h1' := h1 t
    have h2' := h2 t
    rw [mogLogQ, pdExp_apply, Pi.smul_apply, h2']
    have : ∑ i, mogY samples i n * ((P k * NormedSpace.exp ((P k)⁻¹ * t • V k))⁻¹ *
        mogY samples) i n = ∑ i, c i * Real.exp (t * w i) := h1'
    rw [this]
    simp only [mul_assoc, ← Finset.mul_sum]
    ring
  rw [e]
  refine ConvexOn.add ?_ ?_
  · have key : ∀ i, ConvexOn ℝ Set.univ fun t : ℝ => (1 / 2 * c i) * Real.exp (t * w i) := fun i => by
      have h := (convexOn_exp.comp_linearMap (LinearMap.mulRight ℝ (w i))).smul
        (c := 1 / 2 * c i) (mul_nonneg (by norm_num) (hc i))
      simpa using h
    refine ⟨convex_univ, fun x _ y _ p q hp hq hpq => ?_⟩
    simp only [smul_eq_mul, Finset.mul_sum, ← Finset.sum_add_distrib]
    exact Finset.sum_le_sum fun i _ => (key i).2 (Set.mem_univ x) (Set.mem_univ y) hp hq hpq
  · refine ⟨convex_univ, fun x _ y _ p q hp hq hpq => le_of_eq ?_⟩
    simp only [smul_eq_mul]
    have : q = 1 - p := by linarith
    subst this
    ring

/-- **C137** for one component: the cost is convex along every geodesic. -/
theorem C137_one_component_partial [Fintype N] {P V : Stack (Fin 1) (ι ⊕ Unit) (ι ⊕ Unit) ℝ}
    (hP : PDPoint P) (hV : HermStack V) (v : Fin 0 → ℝ) :
    ConvexOn ℝ Set.univ fun t : ℝ => mogCost samples (pdExp P (t • V)) v := by
  have ha : mogAlpha v 0 = 1 := by simpa using mogAlpha_sum v
  have e : (fun t : ℝ => mogCost samples (pdExp P (t • V)) v) =
      fun t => ∑ n, -mogLogQ samples (pdExp P (t • V)) 0 n := by
    funext t
    rw [mogCost, Finset.sum_neg_distrib]
    congr 1
    refine Finset.sum_congr rfl fun n _ => ?_
    rw [mogLoglik]
    simp [ha]
  rw [e]
  refine ⟨convex_univ, fun x _ y _ p q hp hq hpq => ?_⟩
  simp only [smul_eq_mul, Finset.mul_sum, ← Finset.sum_add_distrib]
  exact Finset.sum_le_sum fun n _ => (mogLogQ_convex samples hP hV 0 n).2 (Set.mem_univ x)
    (Set.mem_univ y) hp hq hpq

theorem exp_scalar {m : Type*} [Fintype m] [DecidableEq m] (c : ℝ) :
    NormedSpace.exp (c • (1 : Matrix m m ℝ)) = Real.exp c • 1 := by
  rw [smul_one_eq_diagonal, Matrix.exp_diagonal, smul_one_eq_diagonal]
  congr 1
  funext i
  rw [Pi.coe_exp, Real.exp_eq_exp_ℝ]

theorem mogLogQ_scalar {S : Fin (K + 1) → Matrix (ι ⊕ Unit) (ι ⊕ Unit) ℝ} {k : Fin (K + 1)} {u : ℝ}
    (hS : S k = Real.exp u • 1) (n : N) :
    mogLogQ samples S k n = -(1 / 2) * ((∑ i, mogY samples i n ^ 2) * Real.exp (-u) +
      (Fintype.card ι + 1) * u) := by
  have hinv : (S k)⁻¹ = Real.exp (-u) • 1 := by
    refine inv_eq_right_inv ?_
    rw [hS, Matrix.smul_mul, Matrix.mul_smul, Matrix.one_mul, smul_smul, ← Real.exp_add]
    simp
  have e : ∑ i, mogY samples i n * ((S k)⁻¹ * mogY samples) i n =
      (∑ i, mogY samples i n ^ 2) * Real.exp (-u) := by
    rw [hinv, Finset.sum_mul]
    refine Finset.sum_congr rfl fun i _ => ?_
    rw [Matrix.smul_mul, Matrix.one_mul, Matrix.smul_apply, smul_eq_mul]
    ring
  rw [mogLogQ, e, hS, det_smul, det_one, mul_one, abs_of_pos (by positivity), Real.log_pow,
    Real.log_exp]
  simp

/-- The cost is at most what a single component leaves. -/
theorem mogCost_le_component [Fintype N] (S : Fin (K + 1) → Matrix (ι ⊕ Unit) (ι ⊕ Unit) ℝ)
    (v : Fin K → ℝ) (k : Fin (K + 1)) :
    mogCost samples S v ≤ ∑ n, -(Real.log (mogAlpha v k) + mogLogQ samples S k n) := by
  rw [mogCost, Finset.sum_neg_distrib, neg_le_neg_iff]
  refine Finset.sum_le_sum fun n _ => ?_
  rw [mogLoglik]
  refine (Real.log_exp _).symm.le.trans (Real.log_le_log (Real.exp_pos _) ?_)
  exact Finset.single_le_sum
    (f := fun k => Real.exp (Real.log (mogAlpha v k) + mogLogQ samples S k n))
    (fun _ _ => (Real.exp_pos _).le) (Finset.mem_univ k)

/-- Where all components agree the cost is that of one component. -/
theorem mogCost_same [Fintype N] {S : Fin (K + 1) → Matrix (ι ⊕ Unit) (ι ⊕ Unit) ℝ} {l : N → ℝ}
    (h : ∀ k n, mogLogQ samples S k n = l n) (v : Fin K → ℝ) :
    mogCost samples S v = ∑ n, -l n := by
  rw [mogCost, Finset.sum_neg_distrib]
  congr 1
  refine Finset.sum_congr rfl fun n _ => ?_
  rw [mogLoglik]
  simp only [h, Real.exp_add, Real.exp_log (mogAlpha_pos v _), ← Finset.sum_mul, mogAlpha_sum,
    one_mul, Real.log_exp]

/-- **C137** is false for two components or more: whatever the samples and the probabilities, the
cost is not convex along some geodesic. -/
theorem C137_negation [Fintype N] [Nonempty N] (v : Fin (K + 1) → ℝ) :
    ∃ P V : Stack (Fin (K + 1 + 1)) (ι ⊕ Unit) (ι ⊕ Unit) ℝ, PDPoint P ∧ HermStack V ∧
      ¬ ConvexOn ℝ Set.univ fun t : ℝ => mogCost samples (pdExp P (t • V)) v := by
  set r : N → ℝ := fun n => ∑ i, mogY samples i n ^ 2 with hr
  set B : Fin (K + 1 + 1) → ℝ := fun k => ∑ n, (1 / 2 * r n - Real.log (mogAlpha v k)) with hB
  have hN : (0 : ℝ) < Fintype.card N := by exact_mod_cast Fintype.card_pos
  set u : ℝ := 4 * (|B 0| + |B 1| + 1) with hu
  have hu0 : 0 < u := by rw [hu]; positivity
  set a : ℝ → Fin (K + 1 + 1) → ℝ := fun t k => if k = 0 then t * u else (1 - t) * u with ha
  refine ⟨fun k => Real.exp (a 0 k) • 1,
    fun k => (Real.exp (a 0 k) * (if k = 0 then u else -u)) • 1, ?_, ?_, ?_⟩
  · intro k
    exact PosDef.one.smul (Real.exp_pos _)
  · refine (hermStack_iff _).mpr fun k => ?_
    rw [conjTranspose_smul, conjTranspose_one, star_trivial]
  · intro hconv
    have geo : ∀ t : ℝ, ∀ k, pdExp (fun k => Real.exp (a 0 k) • (1 : Matrix (ι ⊕ Unit) (ι ⊕ Unit) ℝ))
        (t • fun k => (Real.exp (a 0 k) * (if k = 0 then u else -u)) • 1) k =
        Real.exp (a t k) • 1 := fun t k => by
      have hinv : (Real.exp (a 0 k) • (1 : Matrix (ι ⊕ Unit) (ι ⊕ Unit) ℝ))⁻¹ =
          Real.exp (-a 0 k) • 1 := by
        refine inv_eq_right_inv ?_
        rw [Matrix.smul_mul, Matrix.mul_smul, Matrix.one_mul, smul_smul, ← Real.exp_add]
        simp
      rw [pdExp_apply, Pi.smul_apply, hinv, smul_smul, smul_mul_smul_comm, Matrix.one_mul, exp_scalar,
        smul_mul_smul_comm, Matrix.one_mul, ← Real.exp_add]
      congr 2
      have : Real.exp (-a 0 k) * (t * (Real.exp (a 0 k) * if k = 0 then u else -u)) =
          t * if k = 0 then u else -u := by
        rw [show Real.exp (-a 0 k) * (t * (Real.exp (a 0 k) * if k = 0 then u else -u)) =
          (Real.exp (-a 0 k) * Real.exp (a 0 k)) * (t * if k = 0 then u else -u) by ring,
          ← Real.exp_add]
        simp
      rw [this]
      simp only [ha]
      split <;> ring
    have h0 : mogCost samples (pdExp (fun k => Real.exp (a 0 k) • 1)
        ((0 : ℝ) • fun k => (Real.exp (a 0 k) * (if k = 0 then u else -u)) • 1)) v ≤ B 0 := by
      refine (mogCost_le_component samples _ v 0).trans (le_of_eq ?_)
      refine Finset.sum_congr rfl fun n _ => ?_
      rw [mogLogQ_scalar samples (geo 0 0)]
      simp [ha, hr]
      ring
    have h1 : mogCost samples (pdExp (fun k => Real.exp (a 0 k) • 1)
        ((1 : ℝ) • fun k => (Real.exp (a 0 k) * (if k = 0 then u else -u)) • 1)) v ≤ B 1 := by
      refine (mogCost_le_component samples _ v 1).trans (le_of_eq ?_)
      refine Finset.sum_congr rfl fun n _ => ?_
      rw [mogLogQ_scalar samples (geo 1 1)]
      simp [ha, hr]
      ring
    have hm : (Fintype.card N : ℝ) * (u / 4) ≤ mogCost samples
        (pdExp (fun k => Real.exp (a 0 k) • 1)
        ((1 / 2 : ℝ) • fun k => (Real.exp (a 0 k) * (if k = 0 then u else -u)) • 1)) v := by
      rw [mogCost_same samples (l := fun n => -(1 / 2) * (r n * Real.exp (-(u / 2)) +
        (Fintype.card ι + 1) * (u / 2))) (fun k n => by
          rw [mogLogQ_scalar samples (geo (1 / 2) k)]
          have : a (1 / 2) k = u / 2 := by
            simp only [ha]
            split <;> ring
          rw [this]) v]
      have : (Fintype.card N : ℝ) * (u / 4) = ∑ _n : N, u / 4 := by simp
      rw [this]
      refine Finset.sum_le_sum fun n _ => ?_
      have p1 : 0 ≤ r n * Real.exp (-(u / 2)) :=
        mul_nonneg (Finset.sum_nonneg fun i _ => sq_nonneg _) (Real.exp_pos _).le
      have p2 : 0 ≤ (Fintype.card ι : ℝ) * (u / 2) := by positivity
      linarith
    have hc := hconv.2 (Set.mem_univ (0 : ℝ)) (Set.mem_univ (1 : ℝ))
      (show (0 : ℝ) ≤ 1 / 2 by norm_num) (show (0 : ℝ) ≤ 1 / 2 by norm_num) (by norm_num)
    simp only [smul_eq_mul, mul_zero, zero_add, mul_one] at hc
    have hN1 : (1 : ℝ) ≤ Fintype.card N := by exact_mod_cast Fintype.card_pos
    have hq : u / 4 = |B 0| + |B 1| + 1 := by rw [hu]; ring
    have l0 := le_abs_self (B 0)
    have l1 := le_abs_self (B 1)
    have hle : u / 4 ≤ Fintype.card N * (u / 4) := le_mul_of_one_le_left (by positivity) hN1
    linarith [abs_nonneg (B 0), abs_nonneg (B 1)]

/-- A geodesic through the identity. -/
example : PDPoint (fun _ : Fin 1 => (1 : Matrix (Unit ⊕ Unit) (Unit ⊕ Unit) ℝ)) ∧
    HermStack fun _ : Fin 1 => (1 : Matrix (Unit ⊕ Unit) (Unit ⊕ Unit) ℝ) :=
  ⟨fun _ => PosDef.one, (hermStack_iff _).mpr fun _ => conjTranspose_one⟩

end Verif.Geo.Examples
