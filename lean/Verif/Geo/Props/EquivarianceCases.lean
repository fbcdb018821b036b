/-
Concrete cases of C121, C133 and C134: their hypotheses are met.
-/
import Verif.Geo.Props.EquivarianceMat
import Verif.Geo.Props.EquivarianceArr
import Verif.Geo.Props.DistGradGroup

namespace Verif.Geo
open scoped BigOperators
open Matrix Verif.Opt

/-- The geodesic from the identity in the direction `i`, towards `i`, meets the hypotheses of
`C121_unitary`. -/
example : ∃ (c : ℝ → Stack Unit (Fin 1) (Fin 1) ℂ) (A B V L : Stack Unit (Fin 1) (Fin 1) ℂ) (δ : ℝ → ℝ),
    (∀ t, OnUnitary (c t)) ∧ OnUnitary B ∧ InLie V ∧ StackDeriv c (gEmbed A V) 0 ∧ c 0 = A ∧
      IsGLog A B L ∧ (∀ k x, ((A k)ᴴ * B k) *ᵥ x = -x → x = 0) ∧ (∀ t, IsGDist (c t) B (δ t)) ∧
      A ≠ B ∧ V ≠ 0 := by
  set A : Stack Unit (Fin 1) (Fin 1) ℂ := fun _ => 1 with hA
  set B : Stack Unit (Fin 1) (Fin 1) ℂ := fun _ => Complex.I • 1 with hB
  have hAo : OnUnitary A := fun k => by simp [hA]
  have hBo : OnUnitary B := fun k => by simp [hB, conjTranspose_smul, smul_smul]
  have hBl : InLie B := fun k => by
    change (Complex.I • (1 : Matrix (Fin 1) (Fin 1) ℂ))ᴴ = -(Complex.I • 1)
    rw [conjTranspose_smul, conjTranspose_one, Complex.star_def, Complex.conj_I, neg_smul]
  have hc : ∀ t : ℝ, OnUnitary (gExp A (t • B)) := fun t => C96_exp hAo (inLie_subspace.smul t hBl)
  obtain ⟨L, hL, -⟩ := C97_total hAo hBo
  choose δ hδ using fun t : ℝ => (C97_dist (hc t) hBo).1.exists
  have h0 : gExp A ((0 : ℝ) • B) = A := by
    rw [zero_smul]
    exact (C96_exp_geodesic A B hAo hBl).1
  refine ⟨fun t => gExp A (t • B), A, B, B, L, δ, hc, hBo, hBl, ?_, h0, hL, fun k x hx => ?_, hδ,
    fun h => ?_, fun h => ?_⟩
  · have := (C96_exp_geodesic A B hAo hBl).2.1 0
    rwa [h0] at this
  · simp only [hA, hB] at hx
    rw [conjTranspose_one, Matrix.one_mul, Matrix.smul_mulVec, one_mulVec] at hx
    have h3 : (Complex.I + 1) • x = 0 := by rw [add_smul, hx, one_smul, neg_add_cancel]
    refine (smul_eq_zero.1 h3).resolve_left fun h => ?_
    have := congrArg Complex.re h
    simp at this
  · have := congrArg Complex.re (congrFun (congrFun (congrFun h ()) 0) 0)
    simp [hA, hB] at this
  · have := congrArg Complex.im (congrFun (congrFun (congrFun h ()) 0) 0)
    simp [hB] at this

/-- The exchange of two coordinates. -/
private def swap2 : (Fin 2 → ℝ) →ₗ[ℝ] Fin 2 → ℝ where
  toFun v := ![v 1, v 0]
  map_add' v w := by ext i; fin_cases i <;> simp
  map_smul' a v := by ext i; fin_cases i <;> simp

private theorem swap2_isom : Isom tensordot swap2 where
  surj v := ⟨![v 1, v 0], by ext i; fin_cases i <;> rfl⟩
  dot a b := by simp [tensordot, Fin.sum_univ_two, swap2, add_comm]

/-- Linear costs `a · x` on the circle, with the coordinates of the points and of `a` exchanged, meet
the hypotheses of `C134_problems`, and so those of `C133_backTracking`, `C133_steepestDescent`,
`C133_conjugateGradient`, `C133_tcg` and `C133_trustRegions`. -/
example (a : Fin 2 → ℝ) (eps : ℝ) :
    Translates swap2 (fun _ v => swap2 v) OnSphere SphereTangent
      (arrayProb (sphereMfd eps) sphereE2rg sphereE2rh (fun _ v => v) (fun x => tensordot a x)
        (fun _ => a) fun _ _ => 0)
      (arrayProb (sphereMfd eps) sphereE2rg sphereE2rh (fun _ v => v)
        (fun x => tensordot (swap2 a) x) (fun _ => swap2 a) fun _ _ => 0) ∧
    TranslatesHess swap2 (fun _ v => swap2 v) OnSphere SphereTangent
      (arrayProb (sphereMfd eps) sphereE2rg sphereE2rh (fun _ v => v) (fun x => tensordot a x)
        (fun _ => a) fun _ _ => 0)
      (arrayProb (sphereMfd eps) sphereE2rg sphereE2rh (fun _ v => v)
        (fun x => tensordot (swap2 a) x) (fun _ => swap2 a) fun _ _ => 0) := by
  have hg : ∀ b : Fin 2 → ℝ, GradOn tensordot (fun _ => True) (fun x => tensordot b x) fun _ => b :=
    fun b => ⟨fun _ _ _ => Filter.Eventually.of_forall fun _ => trivial, fun x d _ => by
      have e : (fun t : ℝ => tensordot b (x + t • d)) =
          fun t => tensordot b x + t * tensordot b d := funext fun t => by
        rw [tensordot_inner.add_right, tensordot_inner.smul_right]
      rw [e]
      simpa using ((hasDerivAt_id (0 : ℝ)).mul_const (tensordot b d)).const_add (tensordot b x)⟩
  have hh : ∀ b : Fin 2 → ℝ, HessOn tensordot (fun _ => True) (fun _ => b) fun _ _ => 0 :=
    fun b x d w _ => by
      have e : tensordot (0 : Fin 2 → ℝ) w = 0 := by simp [tensordot]
      rw [e]
      exact hasDerivAt_const _ _
  have hs := C109_sphere (ι := Fin 2) eps (fun x => tensordot a x) (fun _ => a) fun _ _ => 0
  have key := C134_problems (ehess := fun _ _ => 0) (ehess' := fun _ _ => 0) tensordot_inner
    (C134_sphere swap2_isom eps).1 hs.1
    (sub_tan_of fun x => sphereTangent_subspace x) (hg a) (hg (swap2 a))
    (fun x _ => ⟨trivial, swap2_isom.dot a x⟩) fun _ _ => trivial
  exact ⟨key.1, key.2 hs.2.1 (hh a) (hh (swap2 a))⟩

/-- A turn on the left and an exchange of columns on the right, as `C134_grassmann`, `C134_stiefel`
and `C134_special_orthogonal` ask. -/
example : Unitary2 (κ := Unit) (fun _ => !![(0 : ℝ), -1; 1, 0]) (fun _ => !![(0 : ℝ), 1; 1, 0]) := by
  constructor <;> intro k <;> ext i j <;> fin_cases i <;> fin_cases j <;>
    simp [mul_apply, Fin.sum_univ_two]

end Verif.Geo
