/-
C53, C54 and parts of C55, C101: Euclidean spaces, symmetric and skew-symmetric matrices.
-/
import Verif.Geo.Model.Euclidean
import Verif.Geo.Props.Multi
import Mathlib.Analysis.Calculus.Deriv.Add
import Mathlib.Analysis.Calculus.Deriv.Mul
import Mathlib.Analysis.Calculus.Deriv.Prod

namespace Verif.Geo
open scoped BigOperators
open Matrix

section base
variable {ι : Type*} [Fintype ι] {𝕜 : Type*} [RCLike 𝕜]

/-- Triangle inequality of the norm of an inner product. -/
theorem IsInner.sqrt_triangle {E : Type*} [AddCommGroup E] [Module ℝ E] {B : E → E → ℝ}
    (h : IsInner B) (u v : E) :
    Real.sqrt (B (u + v) (u + v)) ≤ Real.sqrt (B u u) + Real.sqrt (B v v) := by
  have hc : B u v ≤ Real.sqrt (B u u) * Real.sqrt (B v v) := by
    rw [← Real.sqrt_mul (h.nonneg u)]
    exact Real.le_sqrt_of_sq_le (h.cauchy u v)
  apply Real.sqrt_le_iff.mpr
  refine ⟨by positivity, ?_⟩
  rw [h.add_left, h.add_right, h.add_right, h.symm v u]
  have h1 := Real.sq_sqrt (h.nonneg u)
  have h2 := Real.sq_sqrt (h.nonneg v)
  nlinarith

theorem npNorm_add_le (u v : ι → 𝕜) : npNorm (u + v) ≤ npNorm u + npNorm v := by
  have key : ∀ w : ι → 𝕜, npNorm w = Real.sqrt (retensordot w w) := fun w => by
    rw [← npNorm_sq, Real.sqrt_sq (npNorm_nonneg w)]
  rw [key, key, key]
  exact retensordot_inner.sqrt_triangle u v

theorem npNorm_neg (u : ι → 𝕜) : npNorm (-u) = npNorm u := by simp [npNorm]

/-- C53: exp and log invert each other, the retraction is the exponential map and has the tangent
vector as velocity. -/
theorem C53_exp_log (a b v : ι → 𝕜) :
    eucExp a (eucLog a b) = b ∧ eucLog a (eucExp a v) = v ∧ eucExp a eucZero = a ∧
      HasDerivAt (fun t : ℝ => eucExp a (t • v)) v 0 := by
  refine ⟨by simp [eucExp, eucLog], by simp [eucExp, eucLog], by simp [eucExp, eucZero], ?_⟩
  simpa [eucExp] using ((hasDerivAt_id (0 : ℝ)).smul_const v).const_add a

/-- C53: the inner product is one, and the norm is its norm. -/
theorem C53_inner (a v : ι → 𝕜) :
    IsInner (eucInner a) ∧ eucNorm a v ^ 2 = eucInner a v v ∧ 0 ≤ eucNorm a v :=
  ⟨retensordot_inner, npNorm_sq v, npNorm_nonneg v⟩

/-- C53: `dist` is the norm of the logarithm and a metric. -/
theorem C53_dist (a b c : ι → 𝕜) :
    eucDist a b = eucNorm a (eucLog a b) ∧ eucDist a b = eucDist b a ∧ 0 ≤ eucDist a b ∧
      (eucDist a b = 0 ↔ a = b) ∧ eucDist a c ≤ eucDist a b + eucDist b c := by
  have hs : ∀ x y : ι → 𝕜, npNorm (x - y) = npNorm (y - x) := fun x y => by
    rw [← npNorm_neg, neg_sub]
  refine ⟨hs a b, hs a b, npNorm_nonneg _, ?_, ?_⟩
  · rw [eucDist, npNorm_eq_zero, sub_eq_zero]
  · have : a - c = (a - b) + (b - c) := by abel
    rw [eucDist, this]
    exact npNorm_add_le _ _

/-- C53: `pair_mean` is the midpoint. -/
theorem C53_pair_mean (a b : ι → 𝕜) :
    eucDist a (eucPairMean a b) = eucDist a b / 2 ∧
      eucDist b (eucPairMean a b) = eucDist a b / 2 := by
  have h1 : a - eucPairMean a b = (1 / 2 : ℝ) • (a - b) := by
    rw [eucPairMean]; module
  have h2 : b - eucPairMean a b = (-1 / 2 : ℝ) • (a - b) := by
    rw [eucPairMean]; module
  constructor
  · rw [eucDist, h1, npNorm_smul, eucDist]; norm_num; ring
  · rw [eucDist, h2, npNorm_smul, eucDist]; norm_num [abs_of_pos, abs_div]; ring

/-- C53: transport is a linear isometry; the conversions return the Euclidean gradient and
Hessian, which are the derivatives for this metric. -/
theorem C53_transport_conversion (a b u v g : ι → 𝕜) :
    eucInner b (eucTransport a b u) (eucTransport a b v) = eucInner a u v ∧
      eucInner a (subE2rg eucProj a g) v = eucInner a g v ∧
      ∀ (c : ℝ → ι → 𝕜) (G : (ι → 𝕜) → ι → 𝕜) (H : ι → 𝕜),
        HasDerivAt (fun t => G (c t)) H 0 →
        HasDerivAt (fun t => subE2rg eucProj (c t) (G (c t))) (eucE2rh (c 0) (G (c 0)) H v) 0 :=
  ⟨rfl, rfl, fun _ _ _ h => h⟩

/-- C101 on Euclidean spaces. -/
theorem C101_euclidean (a draw : ι → 𝕜) (h : draw ≠ 0) : eucNorm a (eucRandomTangent a draw) = 1 := by
  have hn : npNorm draw ≠ 0 := fun h' => h ((npNorm_eq_zero draw).mp h')
  rw [eucNorm, eucRandomTangent, npNorm_smul, abs_of_nonneg (inv_nonneg.mpr (npNorm_nonneg _)),
    inv_mul_cancel₀ hn]

end base

section sym
variable {κ n : Type*} [Fintype κ] [Fintype n]

/-- C54: the projections, hence the gradient and Hessian conversions, of `Symmetric` and
`SkewSymmetric` are the orthogonal projections (so return the nearest element). -/
theorem C54_projection (x : Stack κ n n ℝ) :
    IsOrthProj stackDot SymStack (symProj x) ∧ IsOrthProj stackDot SymStack (subE2rg symProj x) ∧
      (∀ g v, IsOrthProj stackDot SymStack fun h => symE2rh x g h v) ∧
      IsOrthProj stackDot SkewStack (skewProj x) ∧
      IsOrthProj stackDot SkewStack (subE2rg skewProj x) ∧
      (∀ g v, IsOrthProj stackDot SkewStack fun h => skewE2rh x g h v) := by
  have h := C50_projections (κ := κ) (n := n) (𝕜 := ℝ)
  exact ⟨h.1, h.1, fun _ _ => h.1, h.2.1, h.2.1, fun _ _ => h.2.1⟩

/-- C54: the converted Hessians are symmetric operators. -/
theorem C54_hessian (x g : Stack κ n n ℝ) (H : Stack κ n n ℝ → Stack κ n n ℝ)
    (hH : ∀ u v, stackDot u (H v) = stackDot (H u) v) :
    IsSymmOn stackDot SymStack (fun v => symE2rh x g (H v) v) ∧
      IsSymmOn stackDot SkewStack (fun v => skewE2rh x g (H v) v) := by
  have h := C54_projection x
  constructor
  · refine ⟨fun _ => multisym_mem _, fun {u v} hu hv => ?_⟩
    have h1 := h.1.represents (H u) hv
    have h2 := h.1.represents (H v) hu
    rw [stackDot_comm, stackDot_comm (H v)] at h2
    exact h2.trans ((hH u v).trans h1.symm)
  · refine ⟨fun _ => multiskew_mem _, fun {u v} hu hv => ?_⟩
    have h1 := h.2.2.2.1.represents (H u) hv
    have h2 := h.2.2.2.1.represents (H v) hu
    rw [stackDot_comm, stackDot_comm (H v)] at h2
    exact h2.trans ((hH u v).trans h1.symm)

omit [Fintype κ] [Fintype n] in
/-- C54: exp, log, transport and pair mean stay in the spaces, random points are in them. -/
theorem C54_stays (a b v draw : Stack κ n n ℝ) :
    (SymStack a → SymStack b → SymStack v → SymStack (eucExp a v) ∧ SymStack (eucLog a b) ∧
      SymStack (eucTransport a b v) ∧ SymStack (eucPairMean a b)) ∧
    (SkewStack a → SkewStack b → SkewStack v → SkewStack (eucExp a v) ∧ SkewStack (eucLog a b) ∧
      SkewStack (eucTransport a b v) ∧ SkewStack (eucPairMean a b)) ∧
    SymStack (symRandomPoint draw) ∧ SkewStack (skewRandomPoint draw) := by
  refine ⟨fun ha hb hv => ⟨symStack_subspace.add ha hv, ?_, hv,
      symStack_subspace.smul _ (symStack_subspace.add ha hb)⟩,
    fun ha hb hv => ⟨skewStack_subspace.add ha hv, ?_, hv,
      skewStack_subspace.smul _ (skewStack_subspace.add ha hb)⟩, multisym_mem _, multiskew_mem _⟩
  · have := symStack_subspace.add hb (symStack_subspace.smul (-1) ha)
    simpa [eucLog, sub_eq_add_neg] using this
  · have := skewStack_subspace.add hb (skewStack_subspace.smul (-1) ha)
    simpa [eucLog, sub_eq_add_neg] using this

omit [Fintype κ] [Fintype n] in
/-- C55 fails for `Symmetric` and `SkewSymmetric`: the result of `to_tangent_space` is a tangent
vector only if the argument is one. -/
theorem C55_symmetric (x v : Stack κ n n ℝ) :
    (SymStack (symToTangent x v) ↔ SymStack v) ∧ (SkewStack (symToTangent x v) ↔ SkewStack v) :=
  ⟨Iff.rfl, Iff.rfl⟩

/-- A vector for which C55 fails on `Symmetric(2)`, and one on `SkewSymmetric(2)`. -/
theorem C55_symmetric_witness :
    ¬ SymStack (symToTangent (κ := Unit) 0 fun _ => !![0, 1; 0, 0]) ∧
      ¬ SkewStack (symToTangent (κ := Unit) 0 fun _ => !![1, 0; 0, 0]) := by
  constructor
  · intro h
    have := h () 0 1
    simp [symToTangent, eucProj] at this
  · intro h
    have := h () 0 0
    norm_num [symToTangent, eucProj] at this

/-- C101 on `Symmetric` and `SkewSymmetric`. -/
theorem C101_symmetric (draw : Stack κ n n ℝ) :
    (symRandomPoint draw ≠ 0 →
      SymStack (symRandomTangent draw) ∧ stackNorm (symRandomTangent draw) = 1) ∧
    (skewRandomPoint draw ≠ 0 →
      SkewStack (skewRandomTangent draw) ∧ stackNorm (skewRandomTangent draw) = 1) := by
  have h := C50_projections (κ := κ) (n := n) (𝕜 := ℝ)
  refine ⟨fun hd => ⟨multisym_mem _, ?_⟩, fun hd => ⟨multiskew_mem _, ?_⟩⟩
  · rw [symRandomTangent, h.1.fixes (symStack_subspace.smul _ 
      (show SymStack (symRandomPoint draw) from multisym_mem draw))]
    exact stackNorm_inv_smul hd
  · rw [skewRandomTangent, h.2.1.fixes (skewStack_subspace.smul _
      (show SkewStack (skewRandomPoint draw) from multiskew_mem draw))]
    exact stackNorm_inv_smul hd

/-- Hypotheses of `C101_symmetric` and of `C54_hessian` are met. -/
example : symRandomPoint (κ := Unit) (fun _ => !![(1 : ℝ), 2; 3, 4]) ≠ 0 ∧
    skewRandomPoint (κ := Unit) (fun _ => !![(1 : ℝ), 2; 3, 4]) ≠ 0 ∧
    ∀ u v : Stack Unit (Fin 2) (Fin 2) ℝ, stackDot u ((2 : ℝ) • v) = stackDot ((2 : ℝ) • u) v := by
  refine ⟨fun h => ?_, fun h => ?_, fun u v => ?_⟩
  · have := congrFun (congrFun (congrFun h ()) 0) 0
    simp only [symRandomPoint, multisym, Pi.smul_apply, Pi.add_apply, multitransp_apply] at this
    norm_num at this
  · have := congrFun (congrFun (congrFun h ()) 0) 1
    simp only [skewRandomPoint, multiskew, Pi.smul_apply, Pi.sub_apply, multitransp_apply] at this
    norm_num at this
  · rw [stackDot_smul_left, stackDot_smul_right]

end sym

end Verif.Geo
