/-
C158 for the positive semidefinite matrices of fixed rank and the elliptope: their projections call a
solver of the Lyapunov equation, of which only the equation is used.
-/
import Verif.Geo.Props.CostUnits
import Verif.Geo.Props.EquivarianceArr

namespace Verif.Geo
open Verif.Opt Matrix

variable {n : Type*} [Fintype n] {k : ℕ} {𝕜 : Type*} [RCLike 𝕜]

/-! ## Multiples of the arguments -/

theorem isLyapunov_smul {m : Type*} [Fintype m] {a q x : Matrix m m 𝕜} (t : ℝ) (h : IsLyapunov a q x) :
    IsLyapunov a (t • q) (t • x) := by
  unfold IsLyapunov at *
  rw [Matrix.mul_smul, Matrix.smul_mul, ← smul_add, h]

theorem isPsdProj_smul {Y V Z : Matrix n (Fin k) 𝕜} (t : ℝ) (h : IsPsdProj Y V Z) :
    IsPsdProj Y (t • V) (t • Z) := by
  obtain ⟨x, hx, rfl⟩ := h
  refine ⟨t • x, ?_, ?_⟩
  · have := isLyapunov_smul t hx
    have e : (t • V)ᴴ = t • Vᴴ := by rw [conjTranspose_smul, star_trivial]
    rwa [smul_sub, ← Matrix.mul_smul, ← Matrix.smul_mul, ← e] at this
  · rw [psdProjFrom, psdProjFrom, Matrix.mul_smul, smul_sub]

omit [Fintype n] in
theorem rowSums_smul (Y V : Matrix n (Fin k) ℝ) (t : ℝ) (i : n) :
    rowSums Y (t • V) i = t * rowSums Y V i := by
  simp only [rowSums, Matrix.smul_apply, smul_eq_mul, Finset.mul_sum]
  exact Finset.sum_congr rfl fun j _ => by ring

omit [Fintype n] in
theorem ellProjRows_smul (Y V : Matrix n (Fin k) ℝ) (t : ℝ) :
    ellProjRows Y (t • V) = t • ellProjRows Y V := by
  ext i j
  simp only [ellProjRows, of_apply, Matrix.smul_apply, smul_eq_mul, rowSums_smul]
  ring

theorem isEllProj_smul {Y V Z : Matrix n (Fin k) ℝ} (t : ℝ) (h : IsEllProj Y V Z) :
    IsEllProj Y (t • V) (t • Z) := by
  obtain ⟨x, hx, rfl⟩ := h
  refine ⟨t • x, ?_, ?_⟩
  · have := isLyapunov_smul t hx
    rw [ellProjRows_smul, transpose_smul, Matrix.mul_smul, Matrix.smul_mul, ← smul_sub, ← smul_neg]
    exact this
  · rw [ellProjRows_smul, transpose_smul, ← smul_sub, Matrix.mul_smul, smul_sub, smul_comm t]

theorem psdProj_linear {proj : Matrix n (Fin k) 𝕜 → Matrix n (Fin k) 𝕜 → Matrix n (Fin k) 𝕜}
    (hp : ∀ Y V, IsPsdProj Y V (proj Y V)) (Y : Matrix n (Fin k) 𝕜) (t : ℝ)
    (V : Matrix n (Fin k) 𝕜) : proj Y (t • V) = t • proj Y V :=
  psdProj_unique (hp Y _) (isPsdProj_smul t (hp Y V))

theorem ellProj_linear {proj : Matrix n (Fin k) ℝ → Matrix n (Fin k) ℝ → Matrix n (Fin k) ℝ}
    (hp : ∀ Y V, IsEllProj Y V (proj Y V)) (Y : Matrix n (Fin k) ℝ) (t : ℝ)
    (V : Matrix n (Fin k) ℝ) : proj Y (t • V) = t • proj Y V :=
  ellProj_unique (hp Y _) (isEllProj_smul t (hp Y V))

/-! ## Theorems -/

/-- **C158.** `PSDFixedRank` and `PSDFixedRankComplex`, with any solver of the Lyapunov equation. -/
theorem C158_psd (dim : ℤ)
    {proj : Matrix n (Fin k) 𝕜 → Matrix n (Fin k) 𝕜 → Matrix n (Fin k) 𝕜}
    (hp : ∀ Y V, IsPsdProj Y V (proj Y V))
    (log pairMean : Matrix n (Fin k) 𝕜 → Matrix n (Fin k) 𝕜 → Matrix n (Fin k) 𝕜) :
    ScaleOps (psdMfd dim proj log pairMean) :=
  psdMfd_scale dim (psdProj_linear hp) log pairMean

/-- **C158.** The conversions of `PSDFixedRank` and `PSDFixedRankComplex`. -/
theorem C158_psd_conversions
    {proj : Matrix n (Fin k) 𝕜 → Matrix n (Fin k) 𝕜 → Matrix n (Fin k) 𝕜}
    {e2rh : Matrix n (Fin k) 𝕜 → Matrix n (Fin k) 𝕜 → Matrix n (Fin k) 𝕜 → Matrix n (Fin k) 𝕜 →
      Matrix n (Fin k) 𝕜}
    (hp : ∀ Y V, IsPsdProj Y V (proj Y V)) (he : ∀ Y G H V, IsPsdE2rh Y G H V (e2rh Y G H V)) :
    ConversionsScale (E := Matrix n (Fin k) 𝕜) psdE2rg e2rh (fun _ v => v) ∧
      ∀ Y G H V, e2rh Y G H V = proj Y H :=
  ⟨{ grad := fun _ _ _ => rfl
     hess := fun Y t G H V => psdProj_unique (he Y _ _ V) (isPsdProj_smul t (he Y G H V))
     hess_vector := fun Y t G H V => psdProj_unique (he Y G _ _) (isPsdProj_smul t (he Y G H V))
     embed := fun _ _ _ => rfl }, fun Y G H V => psdProj_unique (he Y G H V) (hp Y H)⟩

/-- **C158.** `Elliptope`, with any solver of the Lyapunov equation. -/
theorem C158_elliptope (dim : ℤ)
    {proj : Matrix n (Fin k) ℝ → Matrix n (Fin k) ℝ → Matrix n (Fin k) ℝ}
    (hp : ∀ Y V, IsEllProj Y V (proj Y V))
    (log pairMean : Matrix n (Fin k) ℝ → Matrix n (Fin k) ℝ → Matrix n (Fin k) ℝ) :
    ScaleOps (elliptopeMfd dim proj log pairMean) :=
  elliptopeMfd_scale dim (ellProj_linear hp) log pairMean

/-- **C158.** The conversions of `Elliptope`. -/
theorem C158_elliptope_conversions
    {e2rh : Matrix n (Fin k) ℝ → Matrix n (Fin k) ℝ → Matrix n (Fin k) ℝ → Matrix n (Fin k) ℝ →
      Matrix n (Fin k) ℝ}
    (he : ∀ Y G H V, IsEllE2rh Y G H V (e2rh Y G H V)) :
    ConversionsScale (E := Matrix n (Fin k) ℝ) ellE2rg e2rh (fun _ v => v) where
  grad Y t G := ellProjRows_smul Y G t
  hess Y t G H V := by
    refine ellProj_unique (he Y _ _ V) ?_
    have := isEllProj_smul t (he Y G H V)
    have e : ellRowHess Y (t • G) (t • H) V = t • ellRowHess Y G H V := by
      ext i j
      simp only [ellRowHess, rowSums, of_apply, Matrix.smul_apply, smul_eq_mul, mul_sub,
        Finset.mul_sum]
      congr 1
      · congr 1
        exact Finset.sum_congr rfl fun _ _ => by ring
      · exact Finset.sum_congr rfl fun _ _ => by ring
    rwa [e]
  hess_vector Y t G H V := by
    refine ellProj_unique (he Y G _ _) ?_
    have := isEllProj_smul t (he Y G H V)
    have e : ellRowHess Y G (t • H) (t • V) = t • ellRowHess Y G H V := by
      ext i j
      simp only [ellRowHess, rowSums, of_apply, Matrix.smul_apply, smul_eq_mul, mul_sub,
        Finset.mul_sum]
      congr 1
      · congr 1
        exact Finset.sum_congr rfl fun _ _ => by ring
      · exact Finset.sum_congr rfl fun _ _ => by ring
    rwa [e]
  embed _ _ _ := rfl

/-- The equations can be solved at every matrix, also at one without full rank. -/
example : ∃ proj : Matrix n (Fin k) 𝕜 → Matrix n (Fin k) 𝕜 → Matrix n (Fin k) 𝕜,
    ∀ Y V, IsPsdProj Y V (proj Y V) := by
  have : ∀ Y V : Matrix n (Fin k) 𝕜, ∃ Z, IsPsdProj Y V Z := fun Y V => by
    obtain ⟨x, hx⟩ := exists_lyapunov_gram Y V (-V)
    exact ⟨_, x, by rwa [conjTranspose_neg, Matrix.neg_mul, ← sub_eq_add_neg] at hx, rfl⟩
  choose proj h using this
  exact ⟨proj, h⟩

/-- So can those of the elliptope. -/
example : ∃ proj : Matrix n (Fin k) ℝ → Matrix n (Fin k) ℝ → Matrix n (Fin k) ℝ,
    ∀ Y V, IsEllProj Y V (proj Y V) := by
  have : ∀ Y V : Matrix n (Fin k) ℝ, ∃ Z, IsEllProj Y V Z := fun Y V => by
    obtain ⟨x, hx⟩ := exists_lyapunov_gram Y (-ellProjRows Y V) V
    refine ⟨_, x, ?_, rfl⟩
    simp only [conjTranspose_eq_transpose_of_trivial, Matrix.mul_neg] at hx
    rwa [neg_sub, sub_eq_neg_add]
  choose proj h using this
  exact ⟨proj, h⟩

end Verif.Geo
