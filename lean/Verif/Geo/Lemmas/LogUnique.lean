/-
Uniqueness and existence of principal matrix logarithms of unitary matrices.
-/
import Verif.Geo.Model.Group
import Verif.Geo.Lemmas.MatrixCalc
import Verif.Geo.Lemmas.Spectral
import Mathlib.LinearAlgebra.Eigenspace.Triangularizable
import Mathlib.LinearAlgebra.Matrix.Charpoly.Coeff
import Mathlib.LinearAlgebra.Matrix.ToLinearEquiv
import Mathlib.FieldTheory.IsAlgClosed.Spectrum
import Mathlib.Analysis.Complex.Polynomial.Basic
import Mathlib.Analysis.SpecialFunctions.Complex.Log
import Mathlib.Analysis.Calculus.MeanValue

namespace Verif.Geo
open Matrix

variable {n : Type*} [Fintype n] [DecidableEq n]

theorem aeval_intertwine {L M X : Matrix n n ℂ} (h : L * X = X * M) (p : Polynomial ℂ) :
    Polynomial.aeval L p * X = X * Polynomial.aeval M p := by
  induction p using Polynomial.induction_on' with
  | add p q hp hq => rw [map_add, map_add, Matrix.add_mul, Matrix.mul_add, hp, hq]
  | monomial k a =>
    have hpow : ∀ k : ℕ, L ^ k * X = X * M ^ k := by
      intro k
      induction k with
      | zero => simp
      | succ k ih => rw [pow_succ, pow_succ, Matrix.mul_assoc, h, ← Matrix.mul_assoc, ih,
          Matrix.mul_assoc]
    rw [Polynomial.aeval_monomial, Polynomial.aeval_monomial, ← Algebra.smul_def,
      ← Algebra.smul_def, Matrix.smul_mul, Matrix.mul_smul, hpow]

theorem eigenvector_of_not_unit {M : Matrix n n ℂ} {c : ℂ}
    (h : ¬ IsUnit (algebraMap ℂ (Matrix n n ℂ) c - M)) : ∃ v : n → ℂ, v ≠ 0 ∧ M *ᵥ v = c • v := by
  rw [isUnit_iff_isUnit_det, isUnit_iff_ne_zero, not_not] at h
  obtain ⟨v, hv, he⟩ := exists_mulVec_eq_zero_iff.mpr h
  refine ⟨v, hv, ?_⟩
  rw [sub_mulVec, sub_eq_zero] at he
  rw [← he, Algebra.algebraMap_eq_smul_one, smul_mulVec, one_mulVec]

/-- Two intertwined matrices have an eigenvalue in common. -/
theorem common_eigenvalue {L M X : Matrix n n ℂ} (h : L * X = X * M) (hX : X ≠ 0) :
    ∃ c : ℂ, (∃ v : n → ℂ, v ≠ 0 ∧ L *ᵥ v = c • v) ∧ ∃ v : n → ℂ, v ≠ 0 ∧ M *ᵥ v = c • v := by
  have hne : Nonempty n := by
    by_contra hn
    rw [not_nonempty_iff] at hn
    exact hX (Subsingleton.elim _ _)
  have h0 : X * Polynomial.aeval M L.charpoly = 0 := by
    rw [← aeval_intertwine h, aeval_self_charpoly, Matrix.zero_mul]
  have hs : (0 : ℂ) ∈ spectrum ℂ (Polynomial.aeval M L.charpoly) := by
    rw [spectrum.zero_mem_iff]
    intro hu
    obtain ⟨y, hy⟩ := hu.exists_right_inv
    apply hX
    rw [← Matrix.mul_one X, ← hy, ← Matrix.mul_assoc, h0, Matrix.zero_mul]
  rw [spectrum.map_polynomial_aeval_of_nonempty M L.charpoly
    (spectrum.nonempty_of_isAlgClosed_of_finiteDimensional ℂ M)] at hs
  obtain ⟨c, hc, hr⟩ := hs
  refine ⟨c, eigenvector_of_not_unit ?_, eigenvector_of_not_unit hc⟩
  rw [isUnit_iff_isUnit_det, isUnit_iff_ne_zero, not_not]
  have : L.charpoly.eval c = 0 := hr
  rw [eval_charpoly] at this
  rw [← this]
  rfl

theorem exp_smul_one (c : ℂ) : NormedSpace.exp (c • (1 : Matrix n n ℂ)) = Complex.exp c • 1 := by
  have : c • (1 : Matrix n n ℂ) = diagonal fun _ => c := by rw [smul_one_eq_diagonal]
  rw [this, exp_diagonal, smul_one_eq_diagonal]
  congr 1
  funext i
  rw [Pi.coe_exp, Complex.exp_eq_exp_ℂ]

theorem exp_unit (L : Matrix n n ℂ) : NormedSpace.exp L * NormedSpace.exp (-L) = 1 := by
  rw [← exp_add_of_commute _ _ (Commute.neg_right (Commute.refl L)), add_neg_cancel,
    NormedSpace.exp_zero]

/-- If `L X = X M + Y`, `L Y = Y M` and `exp L X = X exp M` then `Y = 0`. -/
theorem first_order_zero {L M X Y : Matrix n n ℂ} (hX : L * X = X * M + Y) (hY : L * Y = Y * M)
    (h : NormedSpace.exp L * X = X * NormedSpace.exp M) : Y = 0 := by
  have d : ∀ t : ℝ, MatDeriv (fun t : ℝ => NormedSpace.exp (t • L) * X * NormedSpace.exp (t • -M))
      Y t := by
    intro t
    refine (((matDeriv_exp L t).mul (MatDeriv.const X t)).mul (matDeriv_exp (-M) t)).congr_deriv ?_
    have hc : -M * NormedSpace.exp (t • -M) = NormedSpace.exp (t • -M) * -M :=
      ((Commute.refl (-M)).smul_right t).exp_right.eq
    have hYt : NormedSpace.exp (t • L) * Y = Y * NormedSpace.exp (t • M) :=
      exp_intertwine (by rw [Matrix.smul_mul, hY, Matrix.mul_smul])
    have hM : NormedSpace.exp (t • M) * NormedSpace.exp (t • -M) = 1 := by
      rw [smul_neg]; exact exp_unit _
    rw [← hc, Matrix.mul_zero, add_zero, Matrix.mul_assoc _ L, hX]
    have : NormedSpace.exp (t • L) * (X * M + Y) * NormedSpace.exp (t • -M) +
        NormedSpace.exp (t • L) * X * (-M * NormedSpace.exp (t • -M)) =
        NormedSpace.exp (t • L) * Y * NormedSpace.exp (t • -M) := by
      rw [Matrix.mul_add, Matrix.add_mul]
      simp only [Matrix.mul_assoc, Matrix.neg_mul, Matrix.mul_neg]
      abel
    rw [this, hYt, Matrix.mul_assoc, hM, Matrix.mul_one]
  ext i j
  have hc : ∀ t : ℝ, HasDerivAt (fun t : ℝ =>
      (NormedSpace.exp (t • L) * X * NormedSpace.exp (t • -M)) i j - t • Y i j) 0 t := by
    intro t
    have := (d t i j).sub ((hasDerivAt_id t).smul_const (Y i j))
    rw [one_smul, sub_self] at this
    exact this
  have hcon := is_const_of_deriv_eq_zero (fun t => (hc t).differentiableAt) (fun t => (hc t).deriv) 0 1
  simp only [zero_smul, one_smul, NormedSpace.exp_zero, Matrix.one_mul, Matrix.mul_one, sub_zero]
    at hcon
  rw [h, Matrix.mul_assoc, exp_unit, Matrix.mul_one] at hcon
  rw [Matrix.zero_apply]
  linear_combination hcon

/-- The eigenvalues of a matrix lie in the strip of principal logarithms. -/
def InStrip (L : Matrix n n ℂ) : Prop :=
  ∀ (μ : ℂ) (v : n → ℂ), v ≠ 0 → L *ᵥ v = μ • v → -Real.pi < μ.im ∧ μ.im ≤ Real.pi

/-- The exponential is injective on matrices with eigenvalues in the strip. -/
theorem exp_strip_injective {L M : Matrix n n ℂ} (hL : InStrip L) (hM : InStrip M)
    (h : NormedSpace.exp L = NormedSpace.exp M) : L = M := by
  let Φ : Module.End ℂ (Matrix n n ℂ) :=
    { toFun := fun X => L * X - X * M
      map_add' := fun X Y => by rw [Matrix.mul_add, Matrix.add_mul]; abel
      map_smul' := fun c X => by
        rw [Matrix.mul_smul, Matrix.smul_mul, RingHom.id_apply, smul_sub] }
  let K : Submodule ℂ (Matrix n n ℂ) :=
    { carrier := {X | NormedSpace.exp L * X = X * NormedSpace.exp M}
      add_mem' := fun {X Y} hX hY => by
        simp only [Set.mem_ofPred_eq] at hX hY ⊢
        rw [Matrix.mul_add, Matrix.add_mul, hX, hY]
      zero_mem' := by simp
      smul_mem' := fun c X hX => by
        simp only [Set.mem_ofPred_eq] at hX ⊢
        rw [Matrix.mul_smul, Matrix.smul_mul, hX] }
  have hK : ∀ X ∈ K, Φ X ∈ K := by
    intro X hX
    change NormedSpace.exp L * (L * X - X * M) = (L * X - X * M) * NormedSpace.exp M
    have hX' : NormedSpace.exp L * X = X * NormedSpace.exp M := hX
    have cL : NormedSpace.exp L * L = L * NormedSpace.exp L := (Commute.refl L).exp_left.eq
    have cM : NormedSpace.exp M * M = M * NormedSpace.exp M := (Commute.refl M).exp_left.eq
    rw [Matrix.mul_sub, Matrix.sub_mul, ← Matrix.mul_assoc, ← Matrix.mul_assoc, cL, Matrix.mul_assoc,
      hX', Matrix.mul_assoc X, cM]
    simp only [Matrix.mul_assoc]
  -- the only eigenvalue on `K` is zero
  have hev : ∀ (ν : ℂ) (X : Matrix n n ℂ), X ∈ K → X ≠ 0 → Φ X = ν • X → ν = 0 := by
    intro ν X hX hX0 he
    have hX' : NormedSpace.exp L * X = X * NormedSpace.exp M := hX
    have he' : L * X - X * M = ν • X := he
    have hi : L * X = X * (M + ν • 1) := by
      rw [Matrix.mul_add, Matrix.mul_smul, Matrix.mul_one, ← he']; abel
    obtain ⟨c, ⟨v, hv, hvL⟩, w, hw, hwM⟩ := common_eigenvalue hi hX0
    have s1 := hL c v hv hvL
    have s2 := hM (c - ν) w hw (by
      rw [add_mulVec, smul_mulVec, one_mulVec] at hwM
      rw [sub_smul, ← hwM]; abel)
    have h1 := exp_intertwine hi
    have hcom : Commute M (ν • (1 : Matrix n n ℂ)) := (Commute.one_right M).smul_right ν
    rw [hX', exp_add_of_commute _ _ hcom, exp_smul_one, Matrix.mul_smul, Matrix.mul_one,
      Matrix.mul_smul] at h1
    have h2 : X = Complex.exp ν • X := by
      have := congrArg (fun A => A * NormedSpace.exp (-M)) h1
      rwa [Matrix.smul_mul, Matrix.mul_assoc, exp_unit, Matrix.mul_one] at this
    have h3 : Complex.exp ν = 1 := by
      by_contra hne
      apply hX0
      have : (Complex.exp ν - 1) • X = 0 := by rw [sub_smul, one_smul, ← h2, sub_self]
      exact (smul_eq_zero.mp this).resolve_left (sub_ne_zero.mpr hne)
    obtain ⟨m, hm⟩ := Complex.exp_eq_one_iff.mp h3
    have him : ν.im = m * (2 * Real.pi) := by rw [hm]; simp
    rw [Complex.sub_im] at s2
    have hpi := Real.pi_pos
    have hlt : |(m : ℝ)| < 1 := by
      rw [abs_lt]
      constructor <;> nlinarith
    have hm0 : m = 0 := by
      have : |m| < 1 := by exact_mod_cast hlt
      exact Int.abs_lt_one_iff.mp this
    rw [hm, hm0]; simp
  -- two applications of `Φ` vanish only if one does
  have hsq : ∀ X ∈ K, Φ (Φ X) = 0 → Φ X = 0 := by
    intro X hX h2
    refine first_order_zero (L := L) (M := M) (X := X) ?_ ?_ hX
    · change L * X = X * M + (L * X - X * M); abel
    · exact sub_eq_zero.mp h2
  have hpow : ∀ (k : ℕ) (X : Matrix n n ℂ), X ∈ K → (Φ ^ k) X = 0 → Φ X = 0 := by
    intro k
    induction k with
    | zero => intro X _ h0; rw [show X = 0 from h0, map_zero]
    | succ k ih =>
      intro X hX h0
      rw [pow_succ] at h0
      exact hsq X hX (ih (Φ X) (hK X hX) h0)
  let f : Module.End ℂ K := Φ.restrict hK
  have htop := Module.End.iSup_maxGenEigenspace_eq_top f
  have hbot : ∀ ν : ℂ, ν ≠ 0 → f.maxGenEigenspace ν = ⊥ := by
    intro ν hν
    by_contra hne
    have : f.HasEigenvalue ν :=
      Module.End.HasUnifEigenvalue.lt (k := ⊤) (m := 1) zero_lt_one hne
    obtain ⟨X, hX⟩ := this.exists_hasEigenvector
    refine hν (hev ν X X.2 ?_ ?_)
    · intro h0; exact hX.2 (Subtype.ext h0)
    · exact congrArg Subtype.val hX.apply_eq_smul
  have h0 : f.maxGenEigenspace 0 = ⊤ := by
    rw [eq_top_iff, ← htop]
    refine iSup_le fun ν => ?_
    by_cases hν : ν = 0
    · rw [hν]
    · rw [hbot ν hν]; exact bot_le
  have h1K : (1 : Matrix n n ℂ) ∈ K := by
    change NormedSpace.exp L * 1 = 1 * NormedSpace.exp M
    rw [Matrix.mul_one, Matrix.one_mul, h]
  have hmem : (⟨1, h1K⟩ : K) ∈ f.maxGenEigenspace 0 := by rw [h0]; trivial
  rw [Module.End.mem_maxGenEigenspace] at hmem
  obtain ⟨k, hk⟩ := hmem
  have hf : f - (0 : ℂ) • (1 : Module.End ℂ K) = f := by rw [zero_smul]; exact sub_zero f
  rw [hf] at hk
  have hcoe : ∀ (k : ℕ) (X : K), ((f ^ k) X : Matrix n n ℂ) = (Φ ^ k) X := by
    intro k
    induction k with
    | zero => intro X; rfl
    | succ k ih => intro X; rw [pow_succ, pow_succ]; exact ih (f X)
  have := hpow k 1 h1K (by rw [← hcoe k ⟨1, h1K⟩, hk]; rfl)
  have h2 : L * 1 - 1 * M = 0 := this
  rwa [Matrix.mul_one, Matrix.one_mul, sub_eq_zero] at h2

/-- Every unitary matrix is diagonalised by a unitary matrix. -/
theorem exists_unitary_diag {A : Matrix n n ℂ} (hA : Aᴴ * A = 1) :
    ∃ (w : n → ℝ) (v : Matrix n n ℂ), (∀ i, -Real.pi < w i ∧ w i ≤ Real.pi) ∧ vᴴ * v = 1 ∧
      A = v * diagonal (fun i => Complex.exp (w i * Complex.I)) * vᴴ := by
  -- a point of the unit circle that is not an eigenvalue
  obtain ⟨z, hz1, hz⟩ : ∃ z : ℂ, ‖z‖ = 1 ∧ IsUnit (z • (1 : Matrix n n ℂ) - A) := by
    have hinf : (Metric.sphere (0 : ℂ) 1).Infinite := by
      have h1 : Function.Injective (fun t : Set.Ioo (0 : ℝ) 1 => Complex.exp ((t : ℝ) * Complex.I)) := by
        intro s t h
        have := Complex.exp_inj_of_neg_pi_lt_of_le_pi (x := (s : ℝ) * Complex.I)
          (y := (t : ℝ) * Complex.I) (by simp; linarith [s.2.1, Real.pi_pos])
          (by simp; linarith [s.2.2, Real.pi_gt_three]) (by simp; linarith [t.2.1, Real.pi_pos])
          (by simp; linarith [t.2.2, Real.pi_gt_three]) h
        have h2 := congrArg Complex.im this
        simp at h2
        exact Subtype.ext h2
      have := (Set.Ioo_infinite (zero_lt_one' ℝ)).to_subtype
      have h2 := Set.infinite_range_of_injective h1
      refine h2.mono ?_
      rintro _ ⟨t, rfl⟩
      simp [Complex.norm_exp_ofReal_mul_I]
    have hfin : (A.charpoly.roots.toFinset : Set ℂ).Finite := Finset.finite_toSet _
    obtain ⟨z, hz, hn⟩ := (hinf.sdiff hfin).nonempty
    refine ⟨z, by simpa using hz, ?_⟩
    rw [isUnit_iff_isUnit_det, isUnit_iff_ne_zero]
    intro h0
    apply hn
    rw [Finset.mem_coe, Multiset.mem_toFinset, Polynomial.mem_roots A.charpoly_monic.ne_zero,
      Polynomial.IsRoot, eval_charpoly]
    rw [smul_one_eq_diagonal] at h0
    exact h0
  have hz0 : z ≠ 0 := by intro h; rw [h] at hz1; simp at hz1
  have hAA : A * Aᴴ = 1 := mul_eq_one_comm.mp hA
  have hzz : star z * z = 1 := by
    have := RCLike.conj_mul z
    rw [hz1] at this
    simpa using this
  obtain ⟨D, hD1, hD2⟩ : ∃ D, (z • (1 : Matrix n n ℂ) - A) * D = 1 ∧
      D * (z • (1 : Matrix n n ℂ) - A) = 1 := by
    obtain ⟨u, hu⟩ := hz
    exact ⟨↑u⁻¹, by rw [← hu]; exact u.mul_inv, by rw [← hu]; exact u.inv_mul⟩
  obtain ⟨P, hP⟩ : ∃ P, P = z • (1 : Matrix n n ℂ) + A := ⟨_, rfl⟩
  obtain ⟨N, hN⟩ : ∃ N, N = z • (1 : Matrix n n ℂ) - A := ⟨_, rfl⟩
  rw [← hN] at hD1 hD2
  have hPN : P * N = N * P := by
    rw [hP, hN]
    simp only [Matrix.mul_add, Matrix.add_mul, Matrix.mul_sub, Matrix.sub_mul, Matrix.smul_mul,
      Matrix.mul_smul, Matrix.one_mul, Matrix.mul_one, smul_add, smul_sub]
    abel
  have hDP : D * P = P * D := by
    calc D * P = D * (P * (N * D)) := by rw [hD1, Matrix.mul_one]
      _ = D * (P * N) * D := by simp only [Matrix.mul_assoc]
      _ = (D * N) * P * D := by rw [hPN]; simp only [Matrix.mul_assoc]
      _ = P * D := by rw [hD2, Matrix.one_mul]
  have hPh : Pᴴ * (z • A) = P := by
    rw [hP, conjTranspose_add, conjTranspose_smul, conjTranspose_one, Matrix.add_mul,
      Matrix.smul_mul, Matrix.one_mul, smul_smul, hzz, one_smul, Matrix.mul_smul, hA, add_comm]
  have hNh : Nᴴ * (z • A) = -N := by
    rw [hN, conjTranspose_sub, conjTranspose_smul, conjTranspose_one, Matrix.sub_mul,
      Matrix.smul_mul, Matrix.one_mul, smul_smul, hzz, one_smul, Matrix.mul_smul, hA, neg_sub]
  have hDh : Dᴴ * Nᴴ = 1 := by rw [← conjTranspose_mul, hD1, conjTranspose_one]
  -- the Cayley transform is Hermitian
  obtain ⟨H, hH⟩ : ∃ H, H = Complex.I • (P * D) := ⟨_, rfl⟩
  have hHherm : H.IsHermitian := by
    have e1 : (P * D)ᴴ = -(P * D) := by
      have hu : (z • A) * ((star z) • Aᴴ) = 1 := by
        rw [Matrix.smul_mul, Matrix.mul_smul, smul_smul, mul_comm, hzz, one_smul, hAA]
      have hP' : Pᴴ = P * (star z • Aᴴ) := by
        rw [← hPh, Matrix.mul_assoc, hu, Matrix.mul_one, hPh]
      have hN' : Nᴴ = -N * (star z • Aᴴ) := by
        rw [← hNh, Matrix.mul_assoc, hu, Matrix.mul_one]
      have hx : Dᴴ * N * (star z • Aᴴ) = -1 := by
        rw [hN', Matrix.neg_mul, Matrix.mul_neg, ← Matrix.mul_assoc] at hDh
        rw [← hDh, neg_neg]
      rw [conjTranspose_mul, hP']
      have : Dᴴ * (P * (star z • Aᴴ)) = Dᴴ * N * (star z • Aᴴ) * (P * D) := by
        have c1 : P * (star z • Aᴴ) = (star z • Aᴴ) * P := by
          have c0 : P * (z • A) = (z • A) * P := by
            rw [hP]
            simp only [Matrix.mul_add, Matrix.add_mul, Matrix.smul_mul, Matrix.mul_smul,
              Matrix.one_mul, Matrix.mul_one, smul_add]
          have hu' := mul_eq_one_comm.mp hu
          calc P * (star z • Aᴴ) = (star z • Aᴴ) * (z • A) * P * (star z • Aᴴ) := by
                rw [hu', Matrix.one_mul]
            _ = (star z • Aᴴ) * (P * (z • A)) * (star z • Aᴴ) := by
                rw [c0]; simp only [Matrix.mul_assoc]
            _ = (star z • Aᴴ) * P * ((z • A) * (star z • Aᴴ)) := by
                simp only [Matrix.mul_assoc]
            _ = _ := by rw [hu, Matrix.mul_one]
        have c2 : N * (star z • Aᴴ) = (star z • Aᴴ) * N := by
          have e : N = (2 * z) • 1 - P := by rw [hN, hP, two_mul, add_smul]; abel
          rw [e, Matrix.sub_mul, Matrix.mul_sub, c1, Matrix.smul_mul, Matrix.one_mul,
            Matrix.mul_smul _ (2 * z), Matrix.mul_one]
        rw [Matrix.mul_assoc Dᴴ N, c2, c1]
        have : Dᴴ * ((star z • Aᴴ) * N) * (P * D) = Dᴴ * (star z • Aᴴ) * (N * P) * D := by
          simp only [Matrix.mul_assoc]
        rw [this, ← hPN]
        have : Dᴴ * (star z • Aᴴ) * (P * N) * D = Dᴴ * (star z • Aᴴ) * P * (N * D) := by
          simp only [Matrix.mul_assoc]
        rw [this, hD1, Matrix.mul_one, Matrix.mul_assoc]
      rw [this, hx, Matrix.neg_mul, Matrix.one_mul]
    rw [Matrix.IsHermitian, hH, conjTranspose_smul, e1]
    simp
  obtain ⟨h, v, hv⟩ := exists_isEigh hHherm
  -- `A` in terms of `H`
  have hHN : H * N = Complex.I • P := by
    rw [hH, Matrix.smul_mul, Matrix.mul_assoc, hD2, Matrix.mul_one]
  obtain ⟨d, hd⟩ : ∃ d : n → ℂ, d = fun i => z * ((h i : ℂ) - Complex.I) / ((h i : ℂ) + Complex.I) :=
    ⟨_, rfl⟩
  have hne : ∀ i, (h i : ℂ) + Complex.I ≠ 0 := by
    intro i h0
    have := congrArg Complex.im h0
    simp at this
  have hAd : A = v * diagonal d * vᴴ := by
    have e1 : (H + Complex.I • 1) * A = z • (H - Complex.I • 1) := by
      rw [hN, hP] at hHN
      rw [Matrix.mul_sub, smul_add, Matrix.mul_smul, Matrix.mul_one] at hHN
      rw [Matrix.add_mul, Matrix.smul_mul, Matrix.one_mul, smul_sub, smul_comm z]
      have h2 : H * A = z • H - Complex.I • z • 1 - Complex.I • A := by
        have h3 : H * A = z • H - (z • H - H * A) := by abel
        rw [h3, hHN]; abel
      rw [h2]; abel
    have hvv := hv.orth'
    have e2 : H + Complex.I • 1 = v * diagonal (fun i => (h i : ℂ) + Complex.I) * vᴴ := by
      have : diagonal (fun i => (h i : ℂ) + Complex.I) =
          diagonal (fun i => ((h i : ℝ) : ℂ)) + Complex.I • (1 : Matrix n n ℂ) := by
        rw [smul_one_eq_diagonal, diagonal_add]
      rw [this, Matrix.mul_add, Matrix.add_mul, Matrix.mul_smul, Matrix.mul_one, Matrix.smul_mul,
        hvv]
      congr 1
      exact hv.prod
    have e3 : H - Complex.I • 1 = v * diagonal (fun i => (h i : ℂ) - Complex.I) * vᴴ := by
      have : diagonal (fun i => (h i : ℂ) - Complex.I) =
          diagonal (fun i => ((h i : ℝ) : ℂ)) - Complex.I • (1 : Matrix n n ℂ) := by
        rw [smul_one_eq_diagonal, diagonal_sub]
      rw [this, Matrix.mul_sub, Matrix.sub_mul, Matrix.mul_smul, Matrix.mul_one, Matrix.smul_mul,
        hvv]
      congr 1
      exact hv.prod
    have e4 : (v * diagonal (fun i => ((h i : ℂ) + Complex.I)⁻¹) * vᴴ) *
        (v * diagonal (fun i => (h i : ℂ) + Complex.I) * vᴴ) = 1 := by
      have : (v * diagonal (fun i => ((h i : ℂ) + Complex.I)⁻¹) * vᴴ) *
        (v * diagonal (fun i => (h i : ℂ) + Complex.I) * vᴴ) =
        v * (diagonal (fun i => ((h i : ℂ) + Complex.I)⁻¹) * (vᴴ * v) *
          diagonal (fun i => (h i : ℂ) + Complex.I)) * vᴴ := by simp only [Matrix.mul_assoc]
      rw [this, hv.orth, Matrix.mul_one, diagonal_mul_diagonal]
      have : (fun i => ((h i : ℂ) + Complex.I)⁻¹ * ((h i : ℂ) + Complex.I)) = fun _ => 1 := by
        funext i; exact inv_mul_cancel₀ (hne i)
      rw [this, diagonal_one, Matrix.mul_one, hvv]
    rw [e2, e3] at e1
    calc A = (v * diagonal (fun i => ((h i : ℂ) + Complex.I)⁻¹) * vᴴ) *
        ((v * diagonal (fun i => (h i : ℂ) + Complex.I) * vᴴ) * A) := by
          rw [← Matrix.mul_assoc, e4, Matrix.one_mul]
      _ = z • (v * (diagonal (fun i => ((h i : ℂ) + Complex.I)⁻¹) * (vᴴ * v) *
          diagonal (fun i => (h i : ℂ) - Complex.I)) * vᴴ) := by
          rw [e1, Matrix.mul_smul]; simp only [Matrix.mul_assoc]
      _ = v * diagonal d * vᴴ := by
          rw [hv.orth, Matrix.mul_one, diagonal_mul_diagonal, ← Matrix.smul_mul, ← Matrix.mul_smul,
            ← diagonal_smul, hd]
          congr 3
          funext i
          simp only [Pi.smul_apply, smul_eq_mul]
          rw [div_eq_mul_inv]; ring
  have hdn : ∀ i, ‖d i‖ = 1 := by
    intro i
    rw [hd]
    simp only
    rw [norm_div, norm_mul, hz1, one_mul]
    have : ((h i : ℂ) - Complex.I) = star ((h i : ℂ) + Complex.I) := by simp [sub_eq_add_neg]
    rw [this, norm_star, div_self (norm_ne_zero_iff.mpr (hne i))]
  refine ⟨fun i => (d i).arg, v, fun i => ⟨Complex.neg_pi_lt_arg _, Complex.arg_le_pi _⟩, hv.orth, ?_⟩
  have : (fun i => Complex.exp ((d i).arg * Complex.I)) = d := by
    funext i
    have := Complex.norm_mul_exp_arg_mul_I (d i)
    rwa [hdn, Complex.ofReal_one, one_mul] at this
  rw [this]
  exact hAd

/-- The exponential of a unitarily diagonalised matrix. -/
theorem exp_unitary_diag {v : Matrix n n ℂ} (hv : vᴴ * v = 1) (d : n → ℂ) :
    NormedSpace.exp (v * diagonal d * vᴴ) = v * diagonal (fun i => Complex.exp (d i)) * vᴴ := by
  have hvv : v * vᴴ = 1 := mul_eq_one_comm.mp hv
  have hu : IsUnit v := IsUnit.of_mul_eq_one _ hvv
  have hinv : v⁻¹ = vᴴ := Matrix.inv_eq_right_inv hvv
  rw [← hinv, Matrix.exp_conj v _ hu, Matrix.exp_diagonal]
  congr 3
  funext i
  rw [Pi.coe_exp, Complex.exp_eq_exp_ℂ]

/-- Eigenvalues of a unitarily diagonalised matrix. -/
theorem unitary_diag_eigen {v : Matrix n n ℂ} (hv : vᴴ * v = 1) (d : n → ℂ) {μ : ℂ} {x : n → ℂ}
    (hx : x ≠ 0) (h : (v * diagonal d * vᴴ) *ᵥ x = μ • x) : ∃ i, μ = d i := by
  have hvv : v * vᴴ = 1 := mul_eq_one_comm.mp hv
  obtain ⟨y, hy⟩ : ∃ y, y = vᴴ *ᵥ x := ⟨_, rfl⟩
  have hy0 : y ≠ 0 := by
    intro h0
    apply hx
    have : v *ᵥ y = x := by rw [hy, mulVec_mulVec, hvv, one_mulVec]
    rw [← this, h0, mulVec_zero]
  have he : diagonal d *ᵥ y = μ • y := by
    have := congrArg (fun z => vᴴ *ᵥ z) h
    rw [mulVec_smul, mulVec_mulVec, ← hy, ← Matrix.mul_assoc, ← Matrix.mul_assoc, hv, Matrix.one_mul,
      ← mulVec_mulVec, ← hy] at this
    exact this
  obtain ⟨i, hi⟩ := Function.ne_iff.mp hy0
  refine ⟨i, ?_⟩
  have := congrFun he i
  rw [mulVec_diagonal, Pi.smul_apply, smul_eq_mul] at this
  exact (mul_right_cancel₀ hi this).symm

/-- Every unitary matrix has a principal logarithm. -/
theorem exists_isLogm {A : Matrix n n ℂ} (hA : Aᴴ * A = 1) : ∃ L, IsLogm A L := by
  obtain ⟨w, v, hw, hv, rfl⟩ := exists_unitary_diag hA
  refine ⟨v * diagonal (fun i => (w i : ℂ) * Complex.I) * vᴴ, exp_unitary_diag hv _, ?_⟩
  intro μ x hx h
  obtain ⟨i, rfl⟩ := unitary_diag_eigen hv _ hx h
  simpa using hw i

theorem IsLogm.unique {A L M : Matrix n n ℂ} (hL : IsLogm A L) (hM : IsLogm A M) : L = M :=
  exp_strip_injective hL.strip hM.strip (hL.exp.trans hM.exp.symm)

/-- The principal logarithm of a unitary matrix is skew-Hermitian. -/
theorem IsLogm.diag {A L : Matrix n n ℂ} (hA : Aᴴ * A = 1) (hL : IsLogm A L) :
    ∃ (w : n → ℝ) (v : Matrix n n ℂ), (∀ i, -Real.pi < w i ∧ w i ≤ Real.pi) ∧ vᴴ * v = 1 ∧
      L = v * diagonal (fun i => (w i : ℂ) * Complex.I) * vᴴ := by
  obtain ⟨w, v, hw, hv, rfl⟩ := exists_unitary_diag hA
  refine ⟨w, v, hw, hv, hL.unique ⟨exp_unitary_diag hv _, ?_⟩⟩
  intro μ x hx h
  obtain ⟨i, rfl⟩ := unitary_diag_eigen hv _ hx h
  simpa using hw i

theorem IsLogm.skew {A L : Matrix n n ℂ} (hA : Aᴴ * A = 1) (hL : IsLogm A L) : Lᴴ = -L := by
  obtain ⟨w, v, -, -, rfl⟩ := hL.diag hA
  rw [conjTranspose_mul, conjTranspose_mul, diagonal_conjTranspose, conjTranspose_conjTranspose,
    ← Matrix.mul_assoc, ← Matrix.neg_mul, ← Matrix.mul_neg, diagonal_neg]
  congr 3
  funext i
  simp

end Verif.Geo
