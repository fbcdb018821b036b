/-
The logarithm and the gradient of half the squared distance (C121): positive semidefinite matrices
of fixed rank.
-/
import Verif.Geo.Lemmas.TraceDeriv
import Verif.Geo.Props.Psd

namespace Verif.Geo
open scoped BigOperators Topology
open Matrix Filter

/-- The linear model of the square root away from zero. -/
theorem sqrt_quad {a : ℝ} (ha : 0 < a) : ∃ C, ∀ᶠ b in 𝓝[Set.univ] a,
    |√b - √a - 1 / (2 * √a) * (b - a)| ≤ C * (b - a) ^ 2 := by
  rw [nhdsWithin_univ]
  have h2 : HasDerivAt (fun b : ℝ => 2 * √b) (2 * (1 / (2 * √a))) a :=
    (Real.hasDerivAt_sqrt ha.ne').const_mul 2
  refine local_quad (f := fun b => √b) (f' := fun b => 1 / (2 * √b))
    (f'' := (0 * (2 * √a) - 1 * (2 * (1 / (2 * √a)))) / (2 * √a) ^ 2) ?_ ?_
  · filter_upwards [eventually_gt_nhds ha] with b hb using Real.hasDerivAt_sqrt hb.ne'
  · exact (hasDerivAt_const a (1 : ℝ)).div h2 (mul_ne_zero two_ne_zero (Real.sqrt_ne_zero'.2 ha))

section
variable {n : Type*} [Fintype n] {k : ℕ} {𝕜 : Type*} [RCLike 𝕜]

theorem hasDerivAt_trDot {m : Type*} [Fintype m] {c d : ℝ → Matrix n m 𝕜} {c' d' : Matrix n m 𝕜}
    (hc : MatDeriv c c' 0) (hd : MatDeriv d d' 0) :
    HasDerivAt (fun t => trDot (c t) (d t)) (trDot c' (d 0) + trDot (c 0) d') 0 := by
  simp only [trDot_eq_sum, ← Finset.sum_add_distrib]
  refine HasDerivAt.fun_sum fun i _ => HasDerivAt.fun_sum fun j _ => ?_
  have h1 := ((hc.conjTranspose j i).mul (hd i j))
  rw [← map_add]
  exact (RCLike.reCLM (K := 𝕜)).hasFDerivAt.comp_hasDerivAt (0 : ℝ) h1

/-- **C121** (positive semidefinite matrices of fixed rank), where the overlap `Bᴴ A` of the two
factors is invertible. -/
theorem C121_psd {c : ℝ → Matrix n (Fin k) 𝕜} {A B V L : Matrix n (Fin k) 𝕜}
    (hc : MatDeriv c V 0) (h0 : c 0 = A) (hAB : IsUnit (Bᴴ * A)) (hL : IsPsdLog A B L)
    {δ : ℝ → ℝ} (hδ : ∀ t, IsPsdDist (c t) B (δ t)) :
    HasDerivAt (fun t => δ t ^ 2 / 2) (-psdInner A L V) 0 := by
  have hex : ∀ t, ∃ (u : Matrix (Fin k) (Fin k) 𝕜) (s : Fin k → ℝ) (vh : Matrix (Fin k) (Fin k) 𝕜),
      IsSVD (Bᴴ * c t) u s vh ∧ (t = 0 → L = B * u * vh - A) := by
    intro t
    by_cases ht : t = 0
    · obtain ⟨u, s, vh, h, he⟩ := hL
      exact ⟨u, s, vh, by rw [ht, h0]; exact h, fun _ => he⟩
    · obtain ⟨u, s, vh, h⟩ := exists_isSVD (by simp) (Bᴴ * c t)
      exact ⟨u, s, vh, h, fun h' => absurd h' ht⟩
  choose u s vh hs hL' using hex
  have hsq : ∀ t i, √(s t i ^ 2) = s t i := fun t i => Real.sqrt_sq ((hs t).nonneg i)
  have hδe : ∀ t, δ t ^ 2 / 2 = trDot (c t) (c t) / 2 + trDot B B / 2 - ∑ i, √(s t i ^ 2) := by
    intro t
    simp only [hsq]
    have h1 : IsPsdDist (c t) B (psdNorm (c t) (B * u t * vh t - c t)) :=
      ⟨_, ⟨u t, s t, vh t, hs t, rfl⟩, rfl⟩
    obtain ⟨e, he⟩ := (C75_total B (c t)).2
    rw [((C75_metric (hδ t)).1 e he).trans ((C75_metric h1).1 e he).symm, psdNorm_sq,
      Matrix.mul_assoc, trDot_expand _ (hs t).polar_orth, trDot_polar (hs t)]
    ring
  simp only [hδe]
  have hs0 : ∀ i, 0 < s 0 i := by
    intro i
    refine lt_of_le_of_ne ((hs 0).nonneg i) fun h => ?_
    have h1 : IsUnit (Bᴴ * c 0).det := (isUnit_iff_isUnit_det _).1 (h0 ▸ hAB)
    rw [(hs 0).prod, det_mul, det_mul, det_diagonal, Finset.prod_eq_zero (Finset.mem_univ i)
      (by rw [← h, RCLike.ofReal_zero])] at h1
    simp at h1
  have hM : MatDeriv (fun t => (Bᴴ * c t)ᴴ * (Bᴴ * c t)) ((Bᴴ * V)ᴴ * (Bᴴ * A) + (Bᴴ * A)ᴴ * (Bᴴ * V))
      0 := by
    have h1 : MatDeriv (fun t => Bᴴ * c t) (Bᴴ * V) 0 := by
      refine ((MatDeriv.const Bᴴ 0).mul hc).congr_deriv ?_
      simp
    refine (h1.conjTranspose.mul h1).congr_deriv ?_
    rw [h0]
  have hnuc := hasDerivAt_eigh_sum hM (fun t => (hs t).any.gram) (f := fun x => √x)
    (f' := fun x => 1 / (2 * √x)) (S := Set.univ) (by simp) fun i => sqrt_quad (pow_pos (hs0 i) 2)
  have hcc : HasDerivAt (fun t => trDot (c t) (c t) / 2) (trDot A V) 0 := by
    have h1 := (hasDerivAt_trDot hc hc).div_const 2
    refine h1.congr_deriv ?_
    rw [h0, trDot_comm V A]
    ring
  refine ((hcc.add_const (trDot B B / 2)).sub hnuc).congr_deriv ?_
  -- the derivative of the sum of the singular values
  set M := Bᴴ * A with hMd
  have hM0 : Bᴴ * c 0 = M := by rw [h0]
  set H := spectral (fun x => 1 / (2 * √x)) (fun i => s 0 i ^ 2) (vh 0)ᴴ with hH
  have hHh : Hᴴ = H := spectral_conjTranspose _
  have e1 : trDot H ((Bᴴ * V)ᴴ * M) = trDot H (Mᴴ * (Bᴴ * V)) := by
    have : (Bᴴ * V)ᴴ * M = (Mᴴ * (Bᴴ * V))ᴴ := by
      rw [conjTranspose_mul Mᴴ, conjTranspose_conjTranspose]
    rw [this, trDot, trDot, ← conjTranspose_mul, trace_conjTranspose, RCLike.star_def,
      RCLike.conj_re, trace_mul_comm, hHh]
  have e2 : (2 : ℝ) • (M * H) = u 0 * vh 0 := by
    have h1 := (hs 0).prod
    rw [hM0] at h1
    rw [h1, hH, spectral, conjTranspose_conjTranspose]
    calc (2 : ℝ) • (u 0 * diagonal (fun i => ((s 0 i : ℝ) : 𝕜)) * vh 0 *
          ((vh 0)ᴴ * diagonal (fun i => ((1 / (2 * √(s 0 i ^ 2)) : ℝ) : 𝕜)) * vh 0)) =
        (2 : ℝ) • (u 0 * diagonal (fun i => ((s 0 i : ℝ) : 𝕜)) * (vh 0 * (vh 0)ᴴ) *
          diagonal (fun i => ((1 / (2 * √(s 0 i ^ 2)) : ℝ) : 𝕜)) * vh 0) := by
            simp only [Matrix.mul_assoc]
      _ = (2 : ℝ) • (u 0 * (diagonal (fun i => ((s 0 i : ℝ) : 𝕜)) *
          diagonal (fun i => ((1 / (2 * √(s 0 i ^ 2)) : ℝ) : 𝕜))) * vh 0) := by
        rw [(hs 0).orthV, Matrix.mul_one]; simp only [Matrix.mul_assoc]
      _ = (2 : ℝ) • (u 0 * ((1 / 2 : ℝ) • (1 : Matrix (Fin k) (Fin k) 𝕜)) * vh 0) := by
        rw [diagonal_mul_diagonal, ← diagonal_one, ← diagonal_smul]
        congr 4
        funext i
        rw [hsq, ← RCLike.ofReal_mul, Pi.smul_apply, RCLike.real_smul_eq_coe_mul, mul_one]
        congr 1
        have := (hs0 i).ne'
        field_simp
      _ = _ := by
        rw [Matrix.mul_smul, Matrix.smul_mul, smul_smul, Matrix.mul_one]; norm_num
  have e3 : trDot H ((Bᴴ * V)ᴴ * M + Mᴴ * (Bᴴ * V)) = trDot (u 0 * vh 0) (Bᴴ * V) := by
    rw [trDot_inner.add_right, e1, ← e2, trDot_inner.smul_left, trDot_mul_left]
    ring
  rw [e3, psdInner_eq, hL' 0 rfl, trDot_inner.sub_left, Matrix.mul_assoc B, trDot_mul_left B]
  ring

end

end Verif.Geo
