/-
Every tall matrix has the factorisations the contracts of `Verif/Geo/Model/Lapack.lean` describe,
so that no theorem assuming such a factorisation is vacuous.
-/
import Verif.Geo.Lemmas.Svd
import Verif.Geo.Lemmas.Whiten
import Verif.Geo.Props.Multi
import Mathlib.Analysis.InnerProductSpace.GramSchmidtOrtho
import Mathlib.Data.Fin.Tuple.Sort

namespace Verif.Geo
open scoped BigOperators InnerProductSpace ComplexOrder
open Matrix

variable {m : Type*} [Fintype m] {𝕜 : Type*} [RCLike 𝕜] {p : ℕ}

/-- Matrix of an orthonormal family of columns. -/
def ofCols {ι : Type*} (b : ι → EuclideanSpace 𝕜 m) : Matrix m ι 𝕜 := of fun i j => b j i

theorem ofCols_gram {ι : Type*} (b c : ι → EuclideanSpace 𝕜 m) (i j : ι) :
    ((ofCols b)ᴴ * ofCols c) i j = ⟪b i, c j⟫_𝕜 := by
  rw [mul_apply, PiLp.inner_apply]
  refine Finset.sum_congr rfl fun l _ => ?_
  rw [conjTranspose_apply]
  simp [ofCols, RCLike.inner_apply, mul_comm]

theorem ofCols_orth {ι : Type*} [DecidableEq ι] {b : ι → EuclideanSpace 𝕜 m}
    (h : Orthonormal 𝕜 b) : (ofCols b)ᴴ * ofCols b = 1 := by
  ext i j
  rw [ofCols_gram, orthonormal_iff_ite.mp h, one_apply]

/-- Every tall matrix has a QR factorisation. -/
theorem exists_isQR (hp : p ≤ Fintype.card m) (A : Matrix m (Fin p) 𝕜) :
    ∃ (q : Matrix m (Fin p) 𝕜) (r : Matrix (Fin p) (Fin p) 𝕜), IsQR A q r := by
  classical
  have hcard : Module.finrank 𝕜 (EuclideanSpace 𝕜 m) = Fintype.card (Fin (Fintype.card m)) := by
    simp
  let f : Fin (Fintype.card m) → EuclideanSpace 𝕜 m := fun i =>
    if h : (i : ℕ) < p then WithLp.toLp 2 fun l => A l ⟨i, h⟩ else 0
  let b := InnerProductSpace.gramSchmidtOrthonormalBasis hcard f
  let e : Fin p → Fin (Fintype.card m) := Fin.castLE hp
  have he : Function.Injective e := Fin.castLE_injective hp
  have hf : ∀ j : Fin p, f (e j) = WithLp.toLp 2 fun l => A l j := fun j => by
    simp [f, e]
  refine ⟨ofCols fun i => b (e i), of fun i j => ⟪b (e i), f (e j)⟫_𝕜, ?_, ?_, ?_⟩
  · exact ofCols_orth (b.orthonormal.comp e he)
  · ext l j
    have h1 := congrArg (fun v : EuclideanSpace 𝕜 m => v l) (b.sum_repr (f (e j)))
    rw [hf j] at h1
    simp only at h1
    rw [← h1, mul_apply]
    have h2 : (∑ i, b.repr (WithLp.toLp 2 fun l => A l j) i • b i) l =
        ∑ i, b.repr (WithLp.toLp 2 fun l => A l j) i * b i l := by
      simp
    rw [h2]
    have h3 : ∀ i ∉ Set.range e, b.repr (WithLp.toLp 2 fun l => A l j) i * b i l = 0 := by
      intro i hi
      have hpi : p ≤ (i : ℕ) := by
        by_contra h
        exact hi ⟨⟨i, not_le.mp h⟩, rfl⟩
      have hji : e j < i := Fin.lt_def.mpr (lt_of_lt_of_le (show ((e j : Fin _) : ℕ) < p from j.2) hpi)
      rw [b.repr_apply_apply, ← hf j,
        InnerProductSpace.gramSchmidtOrthonormalBasis_inv_triangular hcard f hji, zero_mul]
    rw [← Finset.sum_subset (Finset.subset_univ (Finset.univ.image e)) fun i _ hi => h3 i (by
      simpa using hi), Finset.sum_image fun a _ b _ h => he h]
    refine Finset.sum_congr rfl fun i _ => ?_
    rw [b.repr_apply_apply, ← hf j, mul_comm]
    rfl
  · intro i j hij
    exact InnerProductSpace.gramSchmidtOrthonormalBasis_inv_triangular hcard f
      (show e j < e i from hij)

/-- Every tall matrix has a singular value decomposition. -/
theorem exists_isSVD (hp : p ≤ Fintype.card m) (A : Matrix m (Fin p) 𝕜) :
    ∃ (u : Matrix m (Fin p) 𝕜) (s : Fin p → ℝ) (vt : Matrix (Fin p) (Fin p) 𝕜), IsSVD A u s vt := by
  classical
  obtain ⟨w₀, v₀, h₀⟩ := exists_isEigh (A := Aᴴ * A) (isHermitian_conjTranspose_mul_self A)
  -- sort the eigenvalues
  let σ : Equiv.Perm (Fin p) := Tuple.sort fun i => -w₀ i
  let w : Fin p → ℝ := fun i => w₀ (σ i)
  let v : Matrix (Fin p) (Fin p) 𝕜 := v₀.submatrix id σ
  have hanti : Antitone w := fun i j hij => by
    have := Tuple.monotone_sort (fun i => -w₀ i) hij
    simpa [w] using this
  have hvv : vᴴ * v = 1 := by
    have : vᴴ * v = (v₀ᴴ * v₀).submatrix σ σ := rfl
    rw [this, h₀.orth]
    exact Matrix.submatrix_one_equiv σ
  have hvv' : v * vᴴ = 1 := mul_eq_one_comm.mp hvv
  have hG : Aᴴ * A * v = v * diagonal fun i => ((w i : ℝ) : 𝕜) := by
    have h1 : Aᴴ * A * v₀ = v₀ * diagonal fun i => ((w₀ i : ℝ) : 𝕜) := by
      conv_lhs => rw [h₀.prod]
      rw [Matrix.mul_assoc, h₀.orth, Matrix.mul_one]
    ext i j
    rw [mul_diagonal]
    have := congrFun (congrFun h1 i) (σ j)
    rw [mul_diagonal] at this
    exact this
  have hAv : (A * v)ᴴ * (A * v) = diagonal fun i => ((w i : ℝ) : 𝕜) := by
    rw [conjTranspose_mul, Matrix.mul_assoc, ← Matrix.mul_assoc Aᴴ, hG, ← Matrix.mul_assoc, hvv,
      Matrix.one_mul]
  let c : Fin p → EuclideanSpace 𝕜 m := fun j => WithLp.toLp 2 fun l => (A * v) l j
  have hc : ∀ i j, ⟪c i, c j⟫_𝕜 = if i = j then ((w i : ℝ) : 𝕜) else 0 := by
    intro i j
    have : ((ofCols c)ᴴ * ofCols c) i j = ⟪c i, c j⟫_𝕜 := ofCols_gram c c i j
    rw [← this, show ofCols c = A * v from rfl, hAv, diagonal_apply]
  have hw : ∀ i, w i = ‖c i‖ ^ 2 := by
    intro i
    have h1 := hc i i
    rw [if_pos rfl, inner_self_eq_norm_sq_to_K] at h1
    exact_mod_cast h1.symm
  let s : Fin p → ℝ := fun i => ‖c i‖
  -- extend the normalised non-zero columns to an orthonormal basis
  have hcard : Module.finrank 𝕜 (EuclideanSpace 𝕜 m) = Fintype.card (Fin (Fintype.card m)) := by
    simp
  let e : Fin p → Fin (Fintype.card m) := Fin.castLE hp
  have he : Function.Injective e := Fin.castLE_injective hp
  let g : Fin (Fintype.card m) → EuclideanSpace 𝕜 m := fun i =>
    if h : (i : ℕ) < p then ((‖c ⟨i, h⟩‖⁻¹ : ℝ) : 𝕜) • c ⟨i, h⟩ else 0
  have hg : ∀ j, g (e j) = ((‖c j‖⁻¹ : ℝ) : 𝕜) • c j := fun j => by simp [g, e]
  let S : Set (Fin (Fintype.card m)) := {i | ∃ j, e j = i ∧ c j ≠ 0}
  have hS : Orthonormal 𝕜 (S.domRestrict g) := by
    rw [orthonormal_iff_ite]
    rintro ⟨_, i, rfl, hi⟩ ⟨_, j, rfl, hj⟩
    change ⟪g (e i), g (e j)⟫_𝕜 = _
    rw [hg, hg, inner_smul_left, inner_smul_right, hc]
    by_cases hij : i = j
    · subst hij
      have h0 : (‖c i‖ : ℝ) ≠ 0 := norm_ne_zero_iff.mpr hi
      rw [if_pos rfl, if_pos rfl, hw, RCLike.conj_ofReal, ← RCLike.ofReal_mul, ← RCLike.ofReal_mul]
      norm_cast
      field_simp
    · rw [if_neg hij, if_neg, mul_zero, mul_zero]
      intro h
      exact hij (he (congrArg Subtype.val h))
  obtain ⟨b, hb⟩ := hS.exists_orthonormalBasis_extension_of_card_eq hcard
  refine ⟨ofCols fun i => b (e i), s, vᴴ, ofCols_orth (b.orthonormal.comp e he),
    by rw [conjTranspose_conjTranspose, hvv], fun i => norm_nonneg _, ?_, ?_⟩
  · intro i j hij
    have h1 := hanti hij
    rw [hw, hw] at h1
    exact abs_le_of_sq_le_sq' h1 (norm_nonneg _) |>.2
  · have h1 : (ofCols fun i => b (e i)) * diagonal (fun i => ((s i : ℝ) : 𝕜)) = A * v := by
      ext l j
      rw [mul_diagonal]
      change b (e j) l * ((‖c j‖ : ℝ) : 𝕜) = c j l
      by_cases h0 : c j = 0
      · rw [h0]; simp
      · rw [hb (e j) ⟨j, rfl, h0⟩, hg]
        have : (((‖c j‖ : ℝ)) : 𝕜) ≠ 0 := by
          exact_mod_cast norm_ne_zero_iff.mpr h0
        simp only [PiLp.smul_apply, smul_eq_mul]
        rw [RCLike.ofReal_inv]
        field_simp
    rw [h1, Matrix.mul_assoc, hvv', Matrix.mul_one]

/-- Every positive definite matrix has a Cholesky factor. -/
theorem exists_isCholesky {n : ℕ} {P : Matrix (Fin n) (Fin n) 𝕜} (hP : P.PosDef) :
    ∃ c, IsCholesky P c := by
  obtain ⟨C, hC, hu⟩ := exists_factor hP
  obtain ⟨q, r, h⟩ := exists_isQR (by simp) Cᴴ
  obtain ⟨h', hd⟩ := C51_factorisation le_rfl h
  set q' := (multiqr le_rfl q r).1
  set r' := (multiqr le_rfl q r).2
  have hinj : IsUnit r' := by
    have h1 : IsUnit (q' * r') := by
      rw [h'.prod]
      exact IsUnit.of_mul_eq_one _ (mul_invH hu)
    rw [isUnit_iff_isUnit_det, det_mul] at h1
    exact (isUnit_iff_isUnit_det _).mpr (isUnit_of_mul_isUnit_right h1)
  refine ⟨r'ᴴ, ?_, ?_, ?_⟩
  · rw [conjTranspose_conjTranspose, ← hC]
    have h2 : r'ᴴ * r' = (q' * r')ᴴ * (q' * r') := by
      rw [conjTranspose_mul, Matrix.mul_assoc, ← Matrix.mul_assoc q'ᴴ, h'.orth, Matrix.one_mul]
    rw [h2, h'.prod, conjTranspose_conjTranspose]
  · intro i j hij
    rw [conjTranspose_apply, h'.upper j i hij, star_zero]
  · intro i
    obtain ⟨d, hd0, hd1⟩ := hd i
    have hd1' : r' i i = (d : 𝕜) := hd1
    refine ⟨d, lt_of_le_of_ne hd0 ?_, ?_⟩
    · intro h0
      have hdet : r'.det = ∏ i, r' i i := by
        refine det_of_isUpperTriangular ?_
        intro a b hab
        exact h'.upper a b hab
      have := (isUnit_iff_isUnit_det _).mp hinj
      rw [hdet, isUnit_iff_ne_zero, Finset.prod_ne_zero_iff] at this
      exact this i (Finset.mem_univ i) (by rw [hd1', ← h0]; simp)
    · rw [conjTranspose_apply, hd1', RCLike.star_def, RCLike.conj_ofReal]

end Verif.Geo
