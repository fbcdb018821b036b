/-
C134 on positive definite matrices of determinant one.
-/
import Verif.Geo.Props.EquivarianceMat

namespace Verif.Geo
open Matrix Verif.Opt
open scoped ComplexOrder

variable {κ : Type*} {n : ℕ} {A : Stack κ (Fin n) (Fin n) ℂ}

/-- The matrices of a change of basis which preserves determinants of Hermitian forms. -/
def DetModulusOne (A : Stack κ (Fin n) (Fin n) ℂ) : Prop := ∀ k, ‖(A k).det‖ = 1

theorem DetModulusOne.unit (hA : DetModulusOne A) (k : κ) : IsUnit (A k) := by
  rw [Matrix.isUnit_iff_isUnit_det, isUnit_iff_ne_zero]
  intro h
  have := hA k
  rw [h, norm_zero] at this
  exact zero_ne_one this

theorem congr_det (hA : DetModulusOne A) (P : Stack κ (Fin n) (Fin n) ℂ) (k : κ) :
    (congrMap A P k).det = (P k).det := by
  change (A k * P k * (A k)ᴴ).det = _
  rw [det_mul, det_mul, det_conjTranspose, mul_right_comm, Complex.star_def, Complex.mul_conj,
    Complex.normSq_eq_norm_sq, hA k]
  norm_num

theorem unitDet_translate (hA : DetModulusOne A) (P : Stack κ (Fin n) (Fin n) ℂ) :
    unitDet (congrMap A P) = congrMap A (unitDet P) := by
  funext k
  rw [unitDet, congr_det hA]
  change _ • (A k * P k * (A k)ᴴ) = A k * (((P k).det ^ (1 / (n : ℂ)))⁻¹ • P k) * (A k)ᴴ
  rw [Matrix.mul_smul, Matrix.smul_mul]

theorem shpdProj_translate (hA : ∀ k, IsUnit (A k)) (P V : Stack κ (Fin n) (Fin n) ℂ) :
    shpdProj (congrMap A P) (congrMap A V) = congrMap A (shpdProj P V) := by
  have e : pdProj (congrMap A P) (congrMap A V) = congrMap A (pdProj P V) := herm_translate A V
  funext k
  simp only [shpdProj]
  rw [e, congr_solve hA]
  have et : (((A k)⁻¹)ᴴ * multisolve P (pdProj P V) k * (A k)ᴴ).trace =
      (multisolve P (pdProj P V) k).trace := by
    rw [Matrix.trace_mul_comm, ← Matrix.mul_assoc, mul_invH_of hA, Matrix.one_mul]
  rw [et]
  change A k * pdProj P V k * (A k)ᴴ - _ • (A k * P k * (A k)ᴴ) = A k * (_ - _ • P k) * (A k)ᴴ
  rw [Matrix.mul_sub, Matrix.sub_mul, Matrix.mul_smul, Matrix.smul_mul]

theorem shpdE2rg_translate (hA : ∀ k, IsUnit (A k)) (P G : Stack κ (Fin n) (Fin n) ℂ) :
    shpdE2rg (congrMap A P) (cogradMap A G) = congrMap A (shpdE2rg P G) := by
  have e : multiprod (multiprod (congrMap A P) (cogradMap A G)) (congrMap A P) =
      congrMap A (multiprod (multiprod P G) P) := by
    funext k
    change congrMap A P k * cogradMap A G k * congrMap A P k = A k * (P k * G k * P k) * (A k)ᴴ
    rw [congr_mul_cograd hA, conj_mul_congr hA]
  rw [shpdE2rg, shpdE2rg, shpdBaseE2rg, shpdBaseE2rg, e, shpdProj_translate hA,
    shpdProj_translate hA]

/-- The translated points have determinant one too. -/
theorem shpdOn_translate (hA : DetModulusOne A) {P : Stack κ (Fin n) (Fin n) ℂ}
    (hP : SHPDPoint P) : SHPDPoint (congrMap A P) :=
  ⟨pdOn_translate hA.unit hP.1, fun k => (congr_det hA P k).trans (hP.2 k)⟩

/-- **C134** (Hermitian positive definite matrices of determinant one): every change of basis
`P ↦ A P Aᴴ`, with a determinant of modulus one, is a symmetry. The class has no conversion of
Hessians, which can be any two functions here that correspond to each other. -/
theorem C134_special_hpd [Fintype κ] (hA : DetModulusOne A) (dim : ℤ)
    (log log' pairMean pairMean' : Stack κ (Fin n) (Fin n) ℂ → Stack κ (Fin n) (Fin n) ℂ →
      Stack κ (Fin n) (Fin n) ℂ)
    {e2rh e2rh' : Stack κ (Fin n) (Fin n) ℂ → Stack κ (Fin n) (Fin n) ℂ →
      Stack κ (Fin n) (Fin n) ℂ → Stack κ (Fin n) (Fin n) ℂ → Stack κ (Fin n) (Fin n) ℂ}
    (hh : ∀ P G H V, SHPDPoint P → SHPDTangent P V →
      e2rh' (congrMap A P) (cogradMap A G) (cogradMap A H) (congrMap A V) =
        congrMap A (e2rh P G H V)) :
    Symmetry stackDot SHPDPoint SHPDTangent (specialHpdMfd dim log pairMean)
      (specialHpdMfd dim log' pairMean') shpdE2rg shpdE2rg e2rh e2rh' (fun _ v => v)
      (fun _ v => v) (congrMap A) (congrMap A) (congrMap A) (cogradMap A) :=
  symmetry_of (congrMap A) (congr_affine hA.unit) (fun _ _ _ _ => rfl)
    (fun P V _ _ => by rw [pdNorm, pdInner_translate hA.unit]; rfl)
    (fun P V W _ _ _ => pdInner_translate hA.unit P V W)
    (fun P V _ _ => by
      rw [shpdRetract, pdRetract_translate hA.unit, unitDet_translate hA]; rfl)
    (fun P Q V _ _ _ => by
      have e : pdProj (congrMap A Q) (congrMap A V) = congrMap A (pdProj Q V) := herm_translate A V
      rw [shpdTransport, e, shpdProj_translate hA.unit]; rfl)
    (fun _ _ => (map_zero _).symm) (fun _ V _ _ => herm_translate A V)
    (fun P G _ => shpdE2rg_translate hA.unit P G) hh

/-- **C134** (Hermitian positive definite matrices of determinant one): the logarithm translates
too, so that particle swarms and centroids do. -/
theorem C134_special_hpd_log [Fintype κ] (hA : DetModulusOne A) (dim : ℤ)
    {log log' : Stack κ (Fin n) (Fin n) ℂ → Stack κ (Fin n) (Fin n) ℂ → Stack κ (Fin n) (Fin n) ℂ}
    (pairMean pairMean' : Stack κ (Fin n) (Fin n) ℂ → Stack κ (Fin n) (Fin n) ℂ →
      Stack κ (Fin n) (Fin n) ℂ)
    (hl : ∀ P Q, PDPoint P → PDPoint Q → IsPdLog P Q (log P Q))
    (hl' : ∀ P Q, PDPoint P → PDPoint Q → IsPdLog P Q (log' P Q)) :
    TranslatesLog (congrMap A) (fun _ V => congrMap A V) SHPDPoint SHPDTangent
      (specialHpdMfd dim log pairMean) (specialHpdMfd dim log' pairMean') where
  closed := fun P Q hP hQ => (C86_log hP hQ (hl P Q hP.1 hQ.1)).1
  log := fun P Q hP hQ =>
    (C134_positive_definite_log hA.unit dim pairMean pairMean' hl hl').log P Q hP.1 hQ.1

/-- **C134** (Hermitian positive definite matrices of determinant one): the problems with the same
cost in the two bases correspond to each other, so that all the runs do which only use gradients
(C133). -/
theorem C134_special_hpd_problems [Fintype κ] (hn : 0 < n) (hA : DetModulusOne A) (dim : ℤ)
    (log log' pairMean pairMean' : Stack κ (Fin n) (Fin n) ℂ → Stack κ (Fin n) (Fin n) ℂ →
      Stack κ (Fin n) (Fin n) ℂ)
    {e2rh e2rh' : Stack κ (Fin n) (Fin n) ℂ → Stack κ (Fin n) (Fin n) ℂ →
      Stack κ (Fin n) (Fin n) ℂ → Stack κ (Fin n) (Fin n) ℂ → Stack κ (Fin n) (Fin n) ℂ}
    (hh : ∀ P G H V, SHPDPoint P → SHPDTangent P V →
      e2rh' (congrMap A P) (cogradMap A G) (cogradMap A H) (congrMap A V) =
        congrMap A (e2rh P G H V))
    {U U' : Stack κ (Fin n) (Fin n) ℂ → Prop} {cost cost' : Stack κ (Fin n) (Fin n) ℂ → ℝ}
    {egrad egrad' : Stack κ (Fin n) (Fin n) ℂ → Stack κ (Fin n) (Fin n) ℂ}
    (ehess ehess' : Stack κ (Fin n) (Fin n) ℂ → Stack κ (Fin n) (Fin n) ℂ →
      Stack κ (Fin n) (Fin n) ℂ)
    (hg : GradOn stackDot U cost egrad) (hg' : GradOn stackDot U' cost' egrad')
    (hc : SameCost (congrMap A) U U' cost cost') (hU : ∀ P, SHPDPoint P → U P) :
    Translates (congrMap A) (fun _ V => congrMap A V) SHPDPoint SHPDTangent
      (arrayProb (specialHpdMfd dim log pairMean) shpdE2rg e2rh (fun _ v => v) cost egrad ehess)
      (arrayProb (specialHpdMfd dim log' pairMean') shpdE2rg e2rh' (fun _ v => v) cost' egrad'
        ehess') :=
  (C134_problems stackDot_inner (C134_special_hpd hA dim log log' pairMean pairMean' hh)
    (C109_special_hpd hn dim log pairMean e2rh cost egrad ehess)
    (fun P V W _ hV hW => by
      have h := (shpdTangent_subspace P).add hV ((shpdTangent_subspace P).smul (-1) hW)
      rwa [neg_one_smul, ← sub_eq_add_neg] at h) hg hg' hc hU).1

/-- A shear which is not unitary, with determinant one. -/
example : DetModulusOne (κ := Unit) (n := 2) (fun _ => !![1, 2; 0, 1]) ∧
    congrMap (κ := Unit) (fun _ => !![1, 2; 0, (1 : ℂ)]) (fun _ => 1) () = !![5, 2; 2, 1] := by
  refine ⟨fun k => by simp, ?_⟩
  change !![1, 2; 0, (1 : ℂ)] * 1 * (!![1, 2; 0, (1 : ℂ)])ᴴ = _
  ext i j
  fin_cases i <;> fin_cases j <;>
    (simp [Matrix.mul_apply, Fin.sum_univ_two, map_ofNat]; try norm_num)

/-- The hypothesis on Hessians is met, by the conversion of `HermitianPositiveDefinite`. -/
example (hA : DetModulusOne A) (P G H V : Stack κ (Fin n) (Fin n) ℂ) :
    pdE2rh (congrMap A P) (cogradMap A G) (cogradMap A H) (congrMap A V) =
      congrMap A (pdE2rh P G H V) := pdE2rh_translate hA.unit P G H V

end Verif.Geo
