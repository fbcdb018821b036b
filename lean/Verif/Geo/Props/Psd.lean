/-
C74, C75, C55 and C101 for the manifolds of fixed-rank positive semidefinite matrices.
-/
import Verif.Geo.Model.Psd
import Verif.Geo.Lemmas.Lyapunov
import Verif.Geo.Lemmas.MatrixCalc
import Verif.Geo.Lemmas.Exists
import Verif.Geo.Lemmas.Factor
import Verif.Geo.Props.Euclidean

namespace Verif.Geo
open scoped BigOperators ComplexOrder
open Matrix

variable {n : Type*} [Fintype n] {k : ℕ} {𝕜 : Type*} [RCLike 𝕜]

/-- Points: matrices with linearly independent columns. -/
def FullRank (Y : Matrix n (Fin k) 𝕜) : Prop := ∀ y, Y *ᵥ y = 0 → y = 0

/-- Horizontal vectors, the representation of tangent vectors: orthogonal to all directions `Y Ω`,
`Ω` skew-Hermitian, along which the matrix `Y Yᴴ` does not change. -/
def Horizontal (Y Z : Matrix n (Fin k) 𝕜) : Prop :=
  ∀ Ω : Matrix (Fin k) (Fin k) 𝕜, Ωᴴ = -Ω → trDot Z (Y * Ω) = 0

theorem FullRank.posDef {Y : Matrix n (Fin k) 𝕜} (hY : FullRank Y) : (Yᴴ * Y).PosDef :=
  PosDef.conjTranspose_mul_self Y fun a b h => by
    have : Y *ᵥ (a - b) = 0 := by rw [mulVec_sub, h, sub_self]
    exact sub_eq_zero.mp (hY _ this)

theorem psdInner_eq (Y A B : Matrix n (Fin k) 𝕜) : psdInner Y A B = trDot A B := by
  rw [psdInner, retensordot, map_sum, Fintype.sum_prod_type, trDot_eq_sum]

theorem psdNorm_sq (Y V : Matrix n (Fin k) 𝕜) : psdNorm Y V ^ 2 = trDot V V := by
  rw [psdNorm, npNorm_sq, ← psdInner_eq Y V V]; rfl

theorem psdNorm_nonneg (Y V : Matrix n (Fin k) 𝕜) : 0 ≤ psdNorm Y V := npNorm_nonneg _

theorem trDot_comm {m p : Type*} [Fintype m] [Fintype p] (A B : Matrix m p 𝕜) :
    trDot A B = trDot B A := trDot_inner.symm A B

/-- A vector is horizontal exactly when `Yᴴ Z` is Hermitian. -/
theorem horizontal_iff (Y Z : Matrix n (Fin k) 𝕜) : Horizontal Y Z ↔ (Yᴴ * Z)ᴴ = Yᴴ * Z := by
  constructor
  · intro h
    set K := Yᴴ * Z - (Yᴴ * Z)ᴴ with hK
    have hs : Kᴴ = -K := by
      rw [hK, conjTranspose_sub, conjTranspose_conjTranspose]; abel
    have h1 := h K hs
    rw [trDot_comm, trDot_mul_left] at h1
    have h2 : trDot K (Yᴴ * Z)ᴴ = -trDot K (Yᴴ * Z) := by
      have h3 := trDot_conjTranspose Kᴴ (Yᴴ * Z)
      rw [conjTranspose_conjTranspose, hs, trDot_inner.neg_left] at h3
      exact h3
    have h4 : trDot K K = 0 := by
      have h5 : trDot K K = trDot K (Yᴴ * Z) - trDot K (Yᴴ * Z)ᴴ := by
        rw [← trDot_inner.sub_right]
      rw [h5, h2, h1]; ring
    have h6 : K = 0 := trDot_inner.definite K h4
    exact (sub_eq_zero.mp h6).symm
  · intro h Ω hΩ
    rw [trDot_comm, trDot_mul_left, trDot_comm]
    exact trDot_herm_skew h hΩ

omit [Fintype n] in
theorem horizontal_subspace [Fintype n] (Y : Matrix n (Fin k) 𝕜) :
    IsSubspace (E := Matrix n (Fin k) 𝕜) (Horizontal Y) where
  zero Ω _ := trDot_inner.zero_left _
  add hu hv Ω hΩ := by rw [trDot_inner.add_left, hu Ω hΩ, hv Ω hΩ, add_zero]
  smul c _ hu Ω hΩ := by rw [trDot_inner.smul_left, hu Ω hΩ, mul_zero]

/-! ### C74 -/

theorem lyapRhs_skew (Y V : Matrix n (Fin k) 𝕜) : (Yᴴ * V - Vᴴ * Y)ᴴ = -(Yᴴ * V - Vᴴ * Y) := by
  rw [conjTranspose_sub, conjTranspose_mul, conjTranspose_mul, conjTranspose_conjTranspose,
    conjTranspose_conjTranspose]
  abel

theorem psdProj_horizontal {Y V Z : Matrix n (Fin k) 𝕜} (hY : FullRank Y) (h : IsPsdProj Y V Z) :
    Horizontal Y Z := by
  obtain ⟨Ω, hΩ, rfl⟩ := h
  have hs := lyapunov_skew hY.posDef hΩ (lyapRhs_skew Y V)
  rw [horizontal_iff, psdProjFrom, Matrix.mul_sub, conjTranspose_sub, conjTranspose_mul,
    conjTranspose_conjTranspose, ← Matrix.mul_assoc, conjTranspose_mul (Yᴴ * Y) Ω, hs]
  rw [IsLyapunov] at hΩ
  rw [Matrix.neg_mul, sub_neg_eq_add, eq_sub_iff_add_eq, add_assoc, add_comm (Ω * _), hΩ]
  abel

/-- C74: `projection` is the orthogonal projection onto horizontal vectors: it always returns a
result, the result does not depend on how the Lyapunov equation was solved, and it is that of the
orthogonal projection. -/
theorem C74_projection (Y : Matrix n (Fin k) 𝕜) (hY : FullRank Y) :
    ∃ P : Matrix n (Fin k) 𝕜 → Matrix n (Fin k) 𝕜,
      IsOrthProj (E := Matrix n (Fin k) 𝕜) (psdInner Y) (Horizontal Y) P ∧
        ∀ V Z, IsPsdProj Y V Z ↔ Z = P V := by
  choose Ω hΩ using fun V : Matrix n (Fin k) 𝕜 => exists_lyapunov hY.posDef (Yᴴ * V - Vᴴ * Y)
  have hin : IsInner (E := Matrix n (Fin k) 𝕜) (psdInner Y) := by
    rw [show psdInner Y = trDot from funext fun A => funext fun B => psdInner_eq Y A B]
    exact trDot_inner
  refine ⟨fun V => psdProjFrom Y V (Ω V), hin.orthProj (horizontal_subspace Y)
    (fun V => psdProj_horizontal hY ⟨Ω V, hΩ V, rfl⟩) fun V W hW => ?_, fun V Z => ⟨?_, ?_⟩⟩
  · have hs := lyapunov_skew hY.posDef (hΩ V) (lyapRhs_skew Y V)
    have h1 : V - psdProjFrom Y V (Ω V) = Y * Ω V := by rw [psdProjFrom]; abel
    rw [h1, psdInner_eq, trDot_comm]
    exact hW _ hs
  · rintro ⟨Ω', h', rfl⟩
    rw [lyapunov_unique hY.posDef h' (hΩ V)]
  · rintro rfl
    exact ⟨Ω V, hΩ V, rfl⟩

/-- C74: transport returns a horizontal vector at the target. -/
theorem C74_transport (A B V Z : Matrix n (Fin k) 𝕜) (hB : FullRank B) (h : IsPsdTransport A B V Z) :
    Horizontal B Z := psdProj_horizontal hB h

/-- C74: the converted Hessian is horizontal, and symmetric when the Euclidean Hessian is. -/
theorem C74_hessian (Y G : Matrix n (Fin k) 𝕜) (hY : FullRank Y)
    (H R : Matrix n (Fin k) 𝕜 → Matrix n (Fin k) 𝕜)
    (hH : ∀ U V, psdInner Y U (H V) = psdInner Y (H U) V)
    (hR : ∀ V, IsPsdE2rh Y G (H V) V (R V)) :
    IsSymmOn (psdInner Y) (Horizontal Y) R := by
  obtain ⟨P, hP, hiff⟩ := C74_projection Y hY
  have e : ∀ V, R V = P (H V) := fun V => (hiff _ _).mp (hR V)
  refine ⟨fun {V} _ => by rw [e]; exact hP.mem _, fun {U V} hU hV => ?_⟩
  rw [e, e, ← hP.symm, hP.fixes hU, hH, ← hP.represents _ hV]

/-- C74: the Euclidean gradient of a cost that depends on `Y Yᴴ` only is horizontal, so that it needs
no conversion, and represents the differential. -/
theorem C74_gradient (Y G : Matrix n (Fin k) 𝕜) (f : Matrix n (Fin k) 𝕜 → ℝ)
    (hinv : ∀ (Y : Matrix n (Fin k) 𝕜) (Q : Matrix (Fin k) (Fin k) 𝕜), Qᴴ * Q = 1 →
      f (Y * Q) = f Y)
    (hf : ∀ (c : ℝ → Matrix n (Fin k) 𝕜) (c' : Matrix n (Fin k) 𝕜), MatDeriv c c' 0 → c 0 = Y →
      HasDerivAt (fun s => f (c s)) (trDot G c') 0) :
    Horizontal Y (psdE2rg Y G) ∧ ∀ V, psdInner Y (psdE2rg Y G) V = trDot G V := by
  refine ⟨fun Ω hΩ => ?_, fun V => psdInner_eq Y _ V⟩
  have h1 := (MatDeriv.const Y 0).mul (matDeriv_exp Ω 0)
  have h2 : MatDeriv (fun s : ℝ => Y * NormedSpace.exp (s • Ω)) (Y * Ω) 0 := by
    refine h1.congr_deriv ?_
    rw [zero_smul, NormedSpace.exp_zero, Matrix.zero_mul, zero_add, Matrix.one_mul]
  have h3 := hf _ _ h2 (by rw [zero_smul, NormedSpace.exp_zero, Matrix.mul_one])
  have h4 : (fun s : ℝ => f (Y * NormedSpace.exp (s • Ω))) = fun _ => f Y := by
    funext s
    refine hinv Y _ ?_
    rw [← Matrix.exp_conjTranspose, conjTranspose_smul, hΩ, star_trivial, smul_neg,
      ← Matrix.exp_add_of_commute _ _ ((Commute.refl (s • Ω)).neg_left), neg_add_cancel,
      NormedSpace.exp_zero]
  rw [h4] at h3
  exact h3.unique (hasDerivAt_const 0 (f Y))

/-! ### C75 -/

variable {A B L : Matrix n (Fin k) 𝕜}

theorem polar_unitary {M u : Matrix (Fin k) (Fin k) 𝕜} {s : Fin k → ℝ} {vh : Matrix (Fin k) (Fin k) 𝕜}
    (h : IsSVD M u s vh) : (u * vh)ᴴ * (u * vh) = 1 ∧ (u * vh) * (u * vh)ᴴ = 1 :=
  ⟨h.polar_orth, mul_eq_one_comm.mp h.polar_orth⟩

/-- C75: `log` is horizontal and `exp` takes it to a representative of the target. -/
theorem C75_exp_log (h : IsPsdLog A B L) :
    Horizontal A L ∧ psdExp A L * (psdExp A L)ᴴ = B * Bᴴ ∧
      ∃ Q : Matrix (Fin k) (Fin k) 𝕜, Qᴴ * Q = 1 ∧ psdExp A L = B * Q := by
  obtain ⟨u, s, vh, hs, rfl⟩ := h
  have hE : psdExp A (B * u * vh - A) = B * (u * vh) := by
    rw [psdExp, add_sub_cancel, Matrix.mul_assoc]
  refine ⟨?_, ?_, u * vh, (polar_unitary hs).1, hE⟩
  · have h1 : Aᴴ * (B * u * vh - A) = vhᴴ * diagonal (fun i => ((s i : ℝ) : 𝕜)) * vh - Aᴴ * A := by
      have h2 : Aᴴ * B = vhᴴ * diagonal (fun i => ((s i : ℝ) : 𝕜)) * uᴴ := by
        have h3 := congrArg conjTranspose hs.prod
        rw [conjTranspose_mul, conjTranspose_conjTranspose, conjTranspose_mul, conjTranspose_mul,
          diagonal_conjTranspose] at h3
        rw [h3, Matrix.mul_assoc]
        congr 3; funext i; simp
      rw [Matrix.mul_sub, Matrix.mul_assoc B, ← Matrix.mul_assoc, h2]
      congr 1
      rw [Matrix.mul_assoc, ← Matrix.mul_assoc uᴴ, hs.orthU, Matrix.one_mul]
    rw [horizontal_iff, h1, conjTranspose_sub, conjTranspose_mul, conjTranspose_mul,
      conjTranspose_mul, conjTranspose_conjTranspose, conjTranspose_conjTranspose,
      diagonal_conjTranspose, Matrix.mul_assoc]
    congr 4; funext i; simp
  · rw [hE, conjTranspose_mul, Matrix.mul_assoc, ← Matrix.mul_assoc (u * vh), (polar_unitary hs).2,
      Matrix.one_mul]

/-- C75: `log` and `dist` return a result for all points. -/
theorem C75_total (A B : Matrix n (Fin k) 𝕜) : (∃ L, IsPsdLog A B L) ∧ ∃ d, IsPsdDist A B d := by
  obtain ⟨u, s, vh, h⟩ := exists_isSVD (by simp) (Bᴴ * A)
  exact ⟨⟨_, u, s, vh, h, rfl⟩, ⟨_, _, ⟨u, s, vh, h, rfl⟩, rfl⟩⟩

theorem trDot_expand (Q : Matrix (Fin k) (Fin k) 𝕜) (hQ : Qᴴ * Q = 1) :
    trDot (B * Q - A) (B * Q - A) = trDot A A + trDot B B - 2 * trDot (Bᴴ * A) Q := by
  have hQ' : Q * Qᴴ = 1 := mul_eq_one_comm.mp hQ
  have h1 : trDot (B * Q) (B * Q) = trDot B B := by
    rw [trDot_mul_right, Matrix.mul_assoc, hQ', Matrix.mul_one]
  have h2 : trDot (B * Q) A = trDot (Bᴴ * A) Q := by
    rw [trDot_mul_left, trDot_comm]
  rw [trDot_inner.sub_left, trDot_inner.sub_right, trDot_inner.sub_right, h1, trDot_comm A (B * Q), h2]
  ring

theorem trDot_diag (s : Fin k → ℝ) (W : Matrix (Fin k) (Fin k) 𝕜) :
    trDot (diagonal fun i => ((s i : ℝ) : 𝕜)) W = ∑ i, s i * RCLike.re (W i i) := by
  rw [trDot, diagonal_conjTranspose, trace, map_sum]
  refine Finset.sum_congr rfl fun i _ => ?_
  rw [diag_apply, diagonal_mul, Pi.star_apply, RCLike.star_def, RCLike.conj_ofReal,
    RCLike.re_ofReal_mul]

theorem trDot_svd {M u : Matrix (Fin k) (Fin k) 𝕜} {s : Fin k → ℝ} {vh : Matrix (Fin k) (Fin k) 𝕜}
    (h : IsSVD M u s vh) (Q : Matrix (Fin k) (Fin k) 𝕜) :
    trDot M Q = ∑ i, s i * RCLike.re ((uᴴ * (Q * vhᴴ)) i i) := by
  rw [← trDot_diag, ← trDot_mul_left, ← trDot_mul_right, ← h.prod]

theorem trDot_polar {M u : Matrix (Fin k) (Fin k) 𝕜} {s : Fin k → ℝ} {vh : Matrix (Fin k) (Fin k) 𝕜}
    (h : IsSVD M u s vh) : trDot M (u * vh) = ∑ i, s i := by
  rw [trDot_svd h]
  refine Finset.sum_congr rfl fun i _ => ?_
  rw [Matrix.mul_assoc u, h.orthV, Matrix.mul_one, h.orthU, one_apply_eq, RCLike.one_re, mul_one]

theorem trDot_polar_le {M u : Matrix (Fin k) (Fin k) 𝕜} {s : Fin k → ℝ}
    {vh : Matrix (Fin k) (Fin k) 𝕜} (h : IsSVD M u s vh) {Q : Matrix (Fin k) (Fin k) 𝕜}
    (hQ : Qᴴ * Q = 1) : trDot M Q ≤ ∑ i, s i := by
  rw [trDot_svd h]
  refine Finset.sum_le_sum fun i _ => ?_
  have hu : u * uᴴ = 1 := mul_eq_one_comm.mp h.orthU
  have hW : (uᴴ * (Q * vhᴴ))ᴴ * (uᴴ * (Q * vhᴴ)) = 1 := by
    rw [conjTranspose_mul, conjTranspose_mul, conjTranspose_conjTranspose,
      conjTranspose_conjTranspose]
    calc vh * Qᴴ * u * (uᴴ * (Q * vhᴴ)) = vh * (Qᴴ * (u * uᴴ) * Q) * vhᴴ := by
          simp only [Matrix.mul_assoc]
      _ = 1 := by rw [hu, Matrix.mul_one, hQ, Matrix.mul_one, h.orthV]
  have h1 := orth_entry_le hW i i
  have h2 := RCLike.re_le_norm ((uᴴ * (Q * vhᴴ)) i i)
  nlinarith [h.nonneg i]

/-- Frobenius norm, the spec of `psdNorm`. -/
theorem psdNorm_eq (Y V : Matrix n (Fin k) 𝕜) : psdNorm Y V = Real.sqrt (trDot V V) := by
  rw [← psdNorm_sq Y V, Real.sqrt_sq (psdNorm_nonneg Y V)]

/-- C75: the distance is the smallest Frobenius distance between the first factor and a
representative `B Q` of the second point, and it is attained. -/
theorem C75_nearest {d : ℝ} (h : IsPsdDist A B d) :
    (∃ Q : Matrix (Fin k) (Fin k) 𝕜, Qᴴ * Q = 1 ∧ d = Real.sqrt (trDot (B * Q - A) (B * Q - A))) ∧
      ∀ Q : Matrix (Fin k) (Fin k) 𝕜, Qᴴ * Q = 1 →
        d ≤ Real.sqrt (trDot (B * Q - A) (B * Q - A)) := by
  obtain ⟨L, ⟨u, s, vh, hs, rfl⟩, rfl⟩ := h
  have e : psdNorm A (B * u * vh - A) =
      Real.sqrt (trDot (B * (u * vh) - A) (B * (u * vh) - A)) := by
    rw [psdNorm_eq, Matrix.mul_assoc]
  refine ⟨⟨u * vh, hs.polar_orth, e⟩, fun Q hQ => ?_⟩
  rw [e]
  refine Real.sqrt_le_sqrt ?_
  rw [trDot_expand _ hs.polar_orth, trDot_expand _ hQ, trDot_polar hs]
  linarith [trDot_polar_le hs hQ]

theorem trDot_mul_unitary (X : Matrix n (Fin k) 𝕜) {Q : Matrix (Fin k) (Fin k) 𝕜} (hQ : Qᴴ * Q = 1) :
    trDot (X * Q) (X * Q) = trDot X X := by
  rw [trDot_mul_right, Matrix.mul_assoc, mul_eq_one_comm.mp hQ, Matrix.mul_one]

theorem unitary_mul {P Q : Matrix (Fin k) (Fin k) 𝕜} (hP : Pᴴ * P = 1) (hQ : Qᴴ * Q = 1) :
    (P * Q)ᴴ * (P * Q) = 1 := by
  rw [conjTranspose_mul, Matrix.mul_assoc, ← Matrix.mul_assoc Pᴴ, hP, Matrix.one_mul, hQ]

theorem unitary_conj {Q : Matrix (Fin k) (Fin k) 𝕜} (hQ : Qᴴ * Q = 1) : (Qᴴ)ᴴ * Qᴴ = 1 := by
  rw [conjTranspose_conjTranspose]; exact mul_eq_one_comm.mp hQ

theorem dist_le_of_rep {d e : ℝ} {A' B' : Matrix n (Fin k) 𝕜} {P Q : Matrix (Fin k) (Fin k) 𝕜}
    (hP : Pᴴ * P = 1) (hQ : Qᴴ * Q = 1) (h : IsPsdDist A B d) (h' : IsPsdDist A' B' e)
    (hA : A' = A * P) (hB : B' = B * Q) : e ≤ d := by
  obtain ⟨R, hR, rfl⟩ := (C75_nearest h).1
  have hR' := unitary_mul (unitary_mul (unitary_conj hQ) hR) hP
  refine ((C75_nearest h').2 _ hR').trans_eq ?_
  have e1 : B' * (Qᴴ * R * P) - A' = (B * R - A) * P := by
    rw [hA, hB, Matrix.sub_mul]
    congr 1
    calc B * Q * (Qᴴ * R * P) = B * (Q * Qᴴ) * R * P := by simp only [Matrix.mul_assoc]
      _ = _ := by rw [mul_eq_one_comm.mp hQ, Matrix.mul_one]
  rw [e1, trDot_mul_unitary _ hP]

/-- C75: the distance does not depend on the factors chosen to represent the two points, nor on the
singular value decomposition. -/
theorem C75_invariant {d e : ℝ} {P Q : Matrix (Fin k) (Fin k) 𝕜} (hP : Pᴴ * P = 1) (hQ : Qᴴ * Q = 1)
    (h : IsPsdDist A B d) (h' : IsPsdDist (A * P) (B * Q) e) : d = e := by
  refine le_antisymm ?_ (dist_le_of_rep hP hQ h h' rfl rfl)
  refine dist_le_of_rep (unitary_conj hP) (unitary_conj hQ) h' h ?_ ?_
  · rw [Matrix.mul_assoc, mul_eq_one_comm.mp hP, Matrix.mul_one]
  · rw [Matrix.mul_assoc, mul_eq_one_comm.mp hQ, Matrix.mul_one]

theorem dist_symm_le {d e : ℝ} (h : IsPsdDist A B d) (h' : IsPsdDist B A e) : e ≤ d := by
  obtain ⟨Q, hQ, rfl⟩ := (C75_nearest h).1
  refine ((C75_nearest h').2 _ (unitary_conj hQ)).trans_eq ?_
  have e1 : A * Qᴴ - B = -((B * Q - A) * Qᴴ) := by
    rw [Matrix.sub_mul, Matrix.mul_assoc B, mul_eq_one_comm.mp hQ, Matrix.mul_one, neg_sub]
  rw [e1, trDot_inner.neg_left, trDot_inner.neg_right, neg_neg, trDot_mul_unitary _ (unitary_conj hQ)]

/-- C75: the distance is symmetric, satisfies the triangle inequality, is non-negative, and is zero
only between representatives of the same matrix. -/
theorem C75_metric {d : ℝ} (h : IsPsdDist A B d) :
    (∀ e, IsPsdDist B A e → d = e) ∧
      (∀ (C : Matrix n (Fin k) 𝕜) (e f : ℝ), IsPsdDist B C e → IsPsdDist A C f → f ≤ d + e) ∧
      0 ≤ d ∧ (FullRank A → FullRank B → (d = 0 ↔ A * Aᴴ = B * Bᴴ)) := by
  refine ⟨fun e h' => le_antisymm (dist_symm_le h' h) (dist_symm_le h h'), fun C e f he hf => ?_,
    ?_, fun hA hB => ⟨fun h0 => ?_, fun hAB => ?_⟩⟩
  · obtain ⟨Q, hQ, rfl⟩ := (C75_nearest h).1
    obtain ⟨R, hR, rfl⟩ := (C75_nearest he).1
    refine ((C75_nearest hf).2 _ (unitary_mul hR hQ)).trans ?_
    have e1 : C * (R * Q) - A = (B * Q - A) + (C * R - B) * Q := by
      rw [Matrix.sub_mul, Matrix.mul_assoc]; abel
    rw [e1, ← trDot_mul_unitary (C * R - B) hQ]
    exact trDot_inner.sqrt_triangle _ _
  · obtain ⟨Q, -, rfl⟩ := (C75_nearest h).1
    exact Real.sqrt_nonneg _
  · obtain ⟨Q, hQ, hd⟩ := (C75_nearest h).1
    have h1 : trDot (B * Q - A) (B * Q - A) = 0 :=
      (Real.sqrt_eq_zero (trDot_self_nonneg _)).mp (hd.symm.trans h0)
    have h2 : B * Q = A := sub_eq_zero.mp (trDot_inner.definite _ h1)
    rw [← h2, conjTranspose_mul, Matrix.mul_assoc, ← Matrix.mul_assoc Q, mul_eq_one_comm.mp hQ,
      Matrix.one_mul]
  · have uA : IsUnit (Aᴴ * A) := hA.posDef.isUnit
    have uB : IsUnit (Bᴴ * B) := hB.posDef.isUnit
    obtain ⟨Q, hQdef⟩ : ∃ Q, Q = (Bᴴ * B)⁻¹ * (Bᴴ * A) := ⟨_, rfl⟩
    have h1 : B * Q = A := by
      have h2 : (B * Q - A) * (Aᴴ * A) = 0 := by
        have h3 : (B * Q) * Aᴴ = A * Aᴴ := by
          calc B * Q * Aᴴ = B * (Bᴴ * B)⁻¹ * Bᴴ * (A * Aᴴ) := by
                rw [hQdef]; simp only [Matrix.mul_assoc]
            _ = B * ((Bᴴ * B)⁻¹ * (Bᴴ * B)) * Bᴴ := by rw [hAB]; simp only [Matrix.mul_assoc]
            _ = A * Aᴴ := by rw [inv_mul' uB, Matrix.mul_one, hAB]
        rw [Matrix.sub_mul, ← Matrix.mul_assoc (B * Q), ← Matrix.mul_assoc A, h3, sub_self]
      have h4 := congrArg (· * (Aᴴ * A)⁻¹) h2
      simp only [Matrix.mul_assoc (B * Q - A), mul_inv' uA, Matrix.mul_one, Matrix.zero_mul] at h4
      exact sub_eq_zero.mp h4
    have h2 : Q * Qᴴ = 1 := by
      have h3 : Bᴴ * B * (Q * Qᴴ) * (Bᴴ * B) = (Bᴴ * B) * (Bᴴ * B) := by
        calc Bᴴ * B * (Q * Qᴴ) * (Bᴴ * B) = Bᴴ * ((B * Q) * (B * Q)ᴴ) * B := by
              rw [conjTranspose_mul]; simp only [Matrix.mul_assoc]
          _ = _ := by rw [h1, hAB]; simp only [Matrix.mul_assoc]
      calc Q * Qᴴ = ((Bᴴ * B)⁻¹ * (Bᴴ * B)) * (Q * Qᴴ) * ((Bᴴ * B) * (Bᴴ * B)⁻¹) := by
            rw [inv_mul' uB, mul_inv' uB, Matrix.one_mul, Matrix.mul_one]
        _ = (Bᴴ * B)⁻¹ * (Bᴴ * B * (Q * Qᴴ) * (Bᴴ * B)) * (Bᴴ * B)⁻¹ := by
            simp only [Matrix.mul_assoc]
        _ = ((Bᴴ * B)⁻¹ * (Bᴴ * B)) * ((Bᴴ * B) * (Bᴴ * B)⁻¹) := by
            rw [h3]; simp only [Matrix.mul_assoc]
        _ = 1 := by rw [inv_mul' uB, mul_inv' uB, Matrix.one_mul]
    have h3 := (C75_nearest h).2 Q (mul_eq_one_comm.mp h2)
    rw [h1, sub_self, trDot_inner.zero_left, Real.sqrt_zero] at h3
    refine le_antisymm h3 ?_
    obtain ⟨R, -, rfl⟩ := (C75_nearest h).1
    exact Real.sqrt_nonneg _

/-- C75: `log` undoes `exp` for horizontal vectors that are not too long: those with
`(Y + V)ᴴ Y` positive definite.  Then the distance to `exp(Y, V)` is the norm of `V`. -/
theorem C75_log_exp {V : Matrix n (Fin k) 𝕜} (hV : ((psdExp A V)ᴴ * A).PosDef) :
    (∀ L, IsPsdLog A (psdExp A V) L → L = V) ∧
      ∀ d, IsPsdDist A (psdExp A V) d → d = psdNorm A V := by
  have key : ∀ L, IsPsdLog A (psdExp A V) L → L = V := by
    rintro L ⟨u, s, vh, hs, rfl⟩
    set M := (psdExp A V)ᴴ * A with hM
    obtain ⟨w, v, he⟩ := exists_isEigh hV.isHermitian
    have hw := he.eigenvalue_pos hV
    have h1 : IsSVDAny M v w vᴴ :=
      ⟨he.orth, by rw [conjTranspose_conjTranspose]; exact he.orth, fun i => (hw i).le, he.prod⟩
    let f : ℝ → ℝ := fun x => if x = 0 then 0 else 1
    have hfw : (diagonal fun i => ((f (w i) : ℝ) : 𝕜)) = 1 := by
      rw [← diagonal_one]; congr 1; funext i; simp [f, (hw i).ne']
    have hg := hs.any.gram_unique h1 f
    rw [hfw, conjTranspose_conjTranspose, Matrix.mul_one, he.orth'] at hg
    have hfs : (diagonal fun i => ((f (s i) : ℝ) : 𝕜)) = 1 := by
      have h2 := congrArg (fun X => vh * X * vhᴴ) hg
      have h3 : vh * (vhᴴ * (diagonal fun i => ((f (s i) : ℝ) : 𝕜)) * vh) * vhᴴ =
          (vh * vhᴴ) * (diagonal fun i => ((f (s i) : ℝ) : 𝕜)) * (vh * vhᴴ) := by
        simp only [Matrix.mul_assoc]
      change vh * (vhᴴ * (diagonal fun i => ((f (s i) : ℝ) : 𝕜)) * vh) * vhᴴ = vh * 1 * vhᴴ at h2
      rwa [h3, hs.orthV, Matrix.one_mul, Matrix.mul_one, Matrix.mul_one, hs.orthV] at h2
    have hu := hs.any.map_unique h1 (f := f) (by simp [f])
    rw [hfw, hfs, Matrix.mul_one, Matrix.mul_one, he.orth'] at hu
    rw [Matrix.mul_assoc, hu, Matrix.mul_one, psdExp, add_sub_cancel_left]
  refine ⟨key, ?_⟩
  rintro d ⟨L, hL, rfl⟩
  rw [key L hL]

/-! ### C55 and C101 -/

/-- C55 on the fixed-rank positive semidefinite manifolds: the result is horizontal. -/
theorem C55_psd {Y V Z : Matrix n (Fin k) 𝕜} (hY : FullRank Y) (h : IsPsdProj Y V Z) :
    Horizontal Y Z := psdProj_horizontal hY h

theorem psdNorm_eq_zero (Y V : Matrix n (Fin k) 𝕜) : psdNorm Y V = 0 ↔ V = 0 := by
  rw [← sq_eq_zero_iff, psdNorm_sq]
  exact trDot_inner.eq_zero_iff V

/-- C101 on the fixed-rank positive semidefinite manifolds: for every draw that is not vertical. -/
theorem C101_psd {Y draw T : Matrix n (Fin k) 𝕜} (hY : FullRank Y)
    (hd : ¬∃ Ω : Matrix (Fin k) (Fin k) 𝕜, Ωᴴ = -Ω ∧ draw = Y * Ω)
    (h : IsPsdRandomTangent Y draw T) : Horizontal Y T ∧ psdNorm Y T = 1 := by
  obtain ⟨Z, hZ, rfl⟩ := h
  refine ⟨(horizontal_subspace Y).smul _ (psdProj_horizontal hY hZ), ?_⟩
  have hne : Z ≠ 0 := by
    rintro rfl
    obtain ⟨Ω, hΩ, h0⟩ := hZ
    exact hd ⟨Ω, lyapunov_skew hY.posDef hΩ (lyapRhs_skew Y draw), (sub_eq_zero.mp h0.symm)⟩
  have hn : psdNorm Y Z ≠ 0 := fun h0 => hne ((psdNorm_eq_zero Y Z).mp h0)
  have h2 : psdNorm Y ((psdNorm Y Z)⁻¹ • Z) ^ 2 = 1 := by
    rw [psdNorm_sq, trDot_inner.smul_left, trDot_inner.smul_right, ← psdNorm_sq Y Z]
    field_simp
  exact (pow_eq_one_iff_of_nonneg (psdNorm_nonneg _ _) two_ne_zero).mp h2

/-! ### Examples -/

section
open Complex

private def exY : Matrix (Fin 3) (Fin 2) ℂ := !![1, 0; 0, 1; I, 0]

/-- A point of full rank, and a draw that is not vertical. -/
example : FullRank exY ∧ ¬∃ Ω : Matrix (Fin 2) (Fin 2) ℂ, Ωᴴ = -Ω ∧
    !![1, 0; 0, 0; 0, 0] = exY * Ω := by
  constructor
  · intro y hy
    funext j
    fin_cases j
    · have := congrFun hy 0
      simpa [exY, mulVec, dotProduct, Fin.sum_univ_two] using this
    · have := congrFun hy 1
      simpa [exY, mulVec, dotProduct, Fin.sum_univ_two] using this
  · rintro ⟨Ω, hΩ, h⟩
    have h1 := congrFun (congrFun h 0) 0
    have h2 := congrFun (congrFun h 2) 0
    simp [exY, Matrix.mul_apply, Fin.sum_univ_two] at h1 h2
    rw [h2] at h1
    simp at h1

/-- A horizontal vector to which `C75_log_exp` applies. -/
example : Horizontal exY exY ∧ ((psdExp exY exY)ᴴ * exY).PosDef := by
  have hY : FullRank exY := by
    intro y hy
    funext j
    fin_cases j
    · have := congrFun hy 0
      simpa [exY, mulVec, dotProduct, Fin.sum_univ_two] using this
    · have := congrFun hy 1
      simpa [exY, mulVec, dotProduct, Fin.sum_univ_two] using this
  constructor
  · rw [horizontal_iff, conjTranspose_mul, conjTranspose_conjTranspose]
  · rw [psdExp, conjTranspose_add, Matrix.add_mul]
    exact hY.posDef.add hY.posDef

/-- A cost that depends on `Y Yᴴ` only, as assumed in `C74_gradient`: half the squared norm. -/
example (Y : Matrix (Fin 3) (Fin 2) ℂ) (f : Matrix (Fin 3) (Fin 2) ℂ → ℝ)
    (hf : f = fun X => trDot X X / 2) :
    (∀ (Y : Matrix (Fin 3) (Fin 2) ℂ) (Q : Matrix (Fin 2) (Fin 2) ℂ), Qᴴ * Q = 1 →
      f (Y * Q) = f Y) ∧
    ∀ (c : ℝ → Matrix (Fin 3) (Fin 2) ℂ) (c' : Matrix (Fin 3) (Fin 2) ℂ), MatDeriv c c' 0 →
      c 0 = Y → HasDerivAt (fun s => f (c s)) (trDot Y c') 0 := by
  subst hf
  refine ⟨fun Y Q hQ => by simp only [trDot_mul_unitary Y hQ], fun c c' hc h0 => ?_⟩
  have h1 : StackDeriv (fun s (_ : Fin 1) => c s) (fun _ => c') 0 := by
    rw [stackDeriv_iff]; exact fun _ => hc
  have h2 := (hasDerivAt_stackDot h1 h1).div_const 2
  simp only [stackDot_eq, Finset.univ_unique, Finset.sum_singleton] at h2
  refine h2.congr_deriv ?_
  rw [trDot_comm c' (c 0), h0]; ring

end

end Verif.Geo
