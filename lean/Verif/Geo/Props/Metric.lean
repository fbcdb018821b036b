/-
`dist` is a metric on every manifold that implements it (C119).  Where a point is represented by
many arrays (column spaces, positive semidefinite matrices `Y Yᴴ`) it is a metric on what they
represent.  Stiefel, fixed-rank and elliptope inherit the `dist` of the base class, which raises
`NotImplementedError`.
-/
import Verif.Geo.Lemmas.PdTriangle
import Verif.Geo.Lemmas.GrassmannTriangle
import Verif.Geo.Props.Sphere
import Verif.Geo.Props.SphereSubspace
import Verif.Geo.Props.Oblique
import Verif.Geo.Props.ComplexCircle
import Verif.Geo.Props.Positive
import Verif.Geo.Props.SpecialPD
import Verif.Geo.Props.Psd
import Verif.Geo.Props.Hyperbolic
import Verif.Geo.Props.GroupLog
import Verif.Core.Props.Product

namespace Verif.Geo
open scoped BigOperators ComplexOrder
open Matrix

/-! ### Specification -/

/-- The results `D` of `dist` are a metric on the points `P`, two points counting as equal if they
represent the same element of the manifold. -/
structure IsMetricOn {E : Type*} (P : E → Prop) (same : E → E → Prop) (D : E → E → ℝ → Prop) :
    Prop where
  total : ∀ x y, P x → P y → ∃! d, D x y d
  nonneg : ∀ x y d, P x → P y → D x y d → 0 ≤ d
  zero : ∀ x y d, P x → P y → D x y d → (d = 0 ↔ same x y)
  symm : ∀ x y d, P x → P y → D x y d → D y x d
  triangle : ∀ x y z a b c, P x → P y → P z → D x y a → D y z b → D x z c → c ≤ a + b

/-- Equal points give the same distances. -/
theorem IsMetricOn.congr {E : Type*} {P : E → Prop} {same : E → E → Prop} {D : E → E → ℝ → Prop}
    (h : IsMetricOn P same D) {x x' y y' : E} (hx : P x) (hx' : P x') (hy : P y) (hy' : P y')
    (hs : same x x') (ht : same y y') {d e : ℝ} (hd : D x y d) (he : D x' y' e) : d = e := by
  obtain ⟨a, ha, -⟩ := h.total x x' hx hx'
  obtain ⟨b, hb, -⟩ := h.total y y' hy hy'
  obtain ⟨f, hf, -⟩ := h.total x' y hx' hy
  have ha0 := (h.zero _ _ _ hx hx' ha).mpr hs
  have hb0 := (h.zero _ _ _ hy hy' hb).mpr ht
  have h1 := h.triangle _ _ _ _ _ _ hx hx' hy ha hf hd
  have h2 := h.triangle _ _ _ _ _ _ hx' hx hy (h.symm _ _ _ hx hx' ha) hd hf
  have h3 := h.triangle _ _ _ _ _ _ hx' hy hy' hf hb he
  have h4 := h.triangle _ _ _ _ _ _ hx' hy' hy he (h.symm _ _ _ hy hy' hb) hf
  linarith

/-- A metric restricted to some of the points. -/
theorem IsMetricOn.mono {E : Type*} {P Q : E → Prop} {same : E → E → Prop} {D : E → E → ℝ → Prop}
    (h : IsMetricOn P same D) (hQ : ∀ x, Q x → P x) : IsMetricOn Q same D where
  total x y hx hy := h.total x y (hQ x hx) (hQ y hy)
  nonneg x y d hx hy := h.nonneg x y d (hQ x hx) (hQ y hy)
  zero x y d hx hy := h.zero x y d (hQ x hx) (hQ y hy)
  symm x y d hx hy := h.symm x y d (hQ x hx) (hQ y hy)
  triangle x y z a b c hx hy hz := h.triangle x y z a b c (hQ x hx) (hQ y hy) (hQ z hz)

/-- A metric given by a function. -/
theorem isMetricOn_of_fun {E : Type*} {P : E → Prop} {f : E → E → ℝ}
    (h : ∀ x y z, P x → P y → P z → 0 ≤ f x y ∧ f x y = f y x ∧ (f x y = 0 ↔ x = y) ∧
      f x z ≤ f x y + f y z) : IsMetricOn P Eq fun x y d => d = f x y where
  total x y _ _ := ⟨f x y, rfl, fun _ => id⟩
  nonneg x y d hx hy hd := hd ▸ (h x y y hx hy hy).1
  zero x y d hx hy hd := hd ▸ (h x y y hx hy hy).2.2.1
  symm x y d hx hy hd := hd.trans (h x y y hx hy hy).2.1
  triangle x y z a b c hx hy hz ha hb hc := by
    rw [ha, hb, hc]; exact (h x y z hx hy hz).2.2.2

/-- The triangle inequality of stacks from that of the parts. -/
theorem sqrt_sum_triangle {κ : Type*} [Fintype κ] {f g h : κ → ℝ} (hf : ∀ k, 0 ≤ f k)
    (hg : ∀ k, 0 ≤ g k) (hh : ∀ k, 0 ≤ h k) (H : ∀ k, √(f k) ≤ √(g k) + √(h k)) :
    √(∑ k, f k) ≤ √(∑ k, g k) + √(∑ k, h k) := by
  have e : ∀ f : κ → ℝ, (∀ k, 0 ≤ f k) → √(∑ k, f k) = npNorm fun k => √(f k) := by
    intro f hf
    rw [npNorm]
    congr 1
    refine Finset.sum_congr rfl fun k _ => ?_
    rw [Real.norm_eq_abs, sq_abs, Real.sq_sqrt (hf k)]
  rw [e f hf, e g hg, e h hh]
  exact (npNorm_mono (fun k => Real.sqrt_nonneg _) H).trans (npNorm_add_le _ _)

/-! ### Distances that are functions of the arrays -/

/-- C119, Euclidean spaces: real and complex arrays, and the symmetric, Hermitian and
skew-symmetric matrices in them. -/
theorem C119_euclidean {ι : Type*} [Fintype ι] {𝕜 : Type*} [RCLike 𝕜] (P : (ι → 𝕜) → Prop) :
    IsMetricOn P Eq fun a b d => d = eucDist a b :=
  isMetricOn_of_fun fun x y z _ _ _ =>
    let h := C53_dist x y z
    ⟨h.2.2.1, h.2.1, h.2.2.2.1, h.2.2.2.2⟩

/-- C119, sphere. -/
theorem C119_sphere {ι : Type*} [Fintype ι] :
    IsMetricOn (OnSphere (ι := ι)) Eq fun a b d => d = sphereDist a b :=
  isMetricOn_of_fun fun x y z hx hy hz =>
    let h := C58_metric x y z hx hy hz
    ⟨h.2.1, h.1, h.2.2.2.1, h.2.2.2.2⟩

/-- C119, spheres in a subspace. -/
theorem C119_sphere_subspace {ι : Type*} [Fintype ι] (S : (ι → ℝ) → Prop) :
    IsMetricOn (OnSubspaceSphere S) Eq fun a b d => d = sphereDist a b :=
  C119_sphere.mono fun _ h => h.2

/-- C119, oblique manifold. -/
theorem C119_oblique {m n : Type*} [Fintype m] [Fintype n] :
    IsMetricOn (OnOblique (m := m) (n := n)) Eq fun A B d => d = oblDist A B := by
  refine isMetricOn_of_fun fun A B C hA hB hC => ?_
  have e : ∀ A B : Matrix m n ℝ, OnOblique A → OnOblique B →
      oblDist A B = √(∑ j, sphereDist (colOf A j) (colOf B j) ^ 2) := fun A B hA hB => by
    rw [← (C63_distance A B 0 hA hB).1]; exact (Real.sqrt_sq (npNorm_nonneg _)).symm
  have hs := fun j => C58_metric (colOf A j) (colOf B j) (colOf C j) (hA j) (hB j) (hC j)
  refine ⟨npNorm_nonneg _, ?_, ?_, ?_⟩
  · rw [e A B hA hB, e B A hB hA]
    congr 1
    exact Finset.sum_congr rfl fun j _ => by rw [(hs j).1]
  · rw [e A B hA hB, Real.sqrt_eq_zero (Finset.sum_nonneg fun _ _ => sq_nonneg _),
      Finset.sum_eq_zero_iff_of_nonneg fun _ _ => sq_nonneg _]
    constructor
    · intro h
      ext i j
      have h1 := pow_eq_zero_iff two_ne_zero |>.mp (h j (Finset.mem_univ j))
      exact congrFun ((hs j).2.2.2.1.mp h1) i
    · rintro rfl j -
      rw [(hs j).2.2.2.1.mpr rfl]; simp
  · rw [e A C hA hC, e A B hA hB, e B C hB hC]
    refine sqrt_sum_triangle (fun _ => sq_nonneg _) (fun _ => sq_nonneg _) (fun _ => sq_nonneg _)
      fun j => ?_
    have h1 := (C58_metric _ _ (colOf C j) (hB j) (hC j) (hC j)).2.1
    have h2 := (C58_metric _ _ (colOf C j) (hA j) (hC j) (hC j)).2.1
    rw [Real.sqrt_sq h1, Real.sqrt_sq h2, Real.sqrt_sq (hs j).2.1]
    exact (hs j).2.2.2.2

/-- C119, complex circles. -/
theorem C119_complex_circle {ι : Type*} [Fintype ι] :
    IsMetricOn (OnCircles (ι := ι)) Eq fun a b d => d = ccDist a b :=
  isMetricOn_of_fun fun x y z hx hy hz =>
    let h := C107_dist x y z hx hy hz
    ⟨h.2.1, h.1, h.2.2.1, h.2.2.2⟩

/-- C119, positive arrays. -/
theorem C119_positive {ι : Type*} [Fintype ι] :
    IsMetricOn (PosPoint (ι := ι)) Eq fun a b d => d = posDist a b :=
  isMetricOn_of_fun fun x y z hx hy _ => C78_dist x y z hx hy

/-- C119, Poincaré balls. -/
theorem C119_poincare {κ ι : Type*} [Fintype κ] [Fintype ι] :
    IsMetricOn (InBalls (κ := κ) (ι := ι)) Eq fun A B d => d = pbDist A B :=
  isMetricOn_of_fun fun x y z hx hy hz =>
    let h := C88_metric x y z hx hy hz
    ⟨h.1, h.2.1, h.2.2.1, h.2.2.2.1⟩

/-! ### Positive definite matrices -/

section PD
variable {κ : Type*} [Fintype κ] {n : ℕ} {𝕜 : Type*} [RCLike 𝕜]

theorem IsPdDist.eq_sqrt {B : Stack κ (Fin n) (Fin n) 𝕜} {c : Stack κ (Fin n) (Fin n) 𝕜}
    {w : κ → Fin n → ℝ} {v : Stack κ (Fin n) (Fin n) 𝕜}
    (he : ∀ k, IsEigh (pdLogArg c B k) (w k) (v k)) :
    pdDist w v = √(∑ k, ∑ i, Real.log (w k i) ^ 2) := by
  rw [← pdDist_sq he]; exact (Real.sqrt_sq (stackNorm_nonneg _)).symm

/-- C119, positive definite matrices, real and complex. -/
theorem C119_positive_definite :
    IsMetricOn (PDPoint (κ := κ) (n := Fin n) (𝕜 := 𝕜)) Eq IsPdDist where
  total A B hA hB := by
    obtain ⟨d, hd⟩ := (C82_total hA hB).2
    obtain ⟨e, he⟩ := (C82_total hB hA).2
    exact ⟨d, hd, fun d' hd' =>
      (C82_dist_symm hB hd' he).trans (C82_dist_symm hB hd he).symm⟩
  nonneg A B d hA hB hd := (C82_dist_zero hA hB hd).1
  zero A B d hA hB hd := (C82_dist_zero hA hB hd).2
  symm A B d hA hB hd := by
    obtain ⟨e, he⟩ := (C82_total hB hA).2
    rw [C82_dist_symm hB hd he]; exact he
  triangle P Q R x y z hP hQ hR hx hy hz := by
    obtain ⟨c, w, v, hc, he, rfl⟩ := hx
    obtain ⟨q, w', v', hq, he', rfl⟩ := hy
    -- the distance does not depend on the factors, so take the Cholesky factors of the first
    choose w'' v'' he'' using fun k =>
      exists_isEigh (posDef_whiten (hc k).isUnit (hR k)).isHermitian
    have hz' : IsPdDist P R (pdDist w'' v'') := ⟨c, w'', v'', hc, he'', rfl⟩
    obtain ⟨e, he0⟩ := (C82_total hR hP).2
    rw [(C82_dist_symm hR hz he0).trans (C82_dist_symm hR hz' he0).symm,
      IsPdDist.eq_sqrt he, IsPdDist.eq_sqrt he', IsPdDist.eq_sqrt he'']
    refine sqrt_sum_triangle (fun _ => Finset.sum_nonneg fun _ _ => sq_nonneg _)
      (fun _ => Finset.sum_nonneg fun _ _ => sq_nonneg _)
      (fun _ => Finset.sum_nonneg fun _ _ => sq_nonneg _) fun k => ?_
    have hu := (hc k).isUnit
    have hv := (hq k).isUnit
    have hpos : (pdLogArg q R k).PosDef := posDef_whiten hv (hR k)
    obtain ⟨hH, hexp, -⟩ := C52_log (he' k) hpos
    -- the arguments of the logarithms in terms of `C = c⁻¹ q`
    obtain ⟨C, hC⟩ : ∃ C, C = (c k)⁻¹ * q k := ⟨_, rfl⟩
    have e0 : pdLogArg c Q k = C * Cᴴ := by
      rw [pdLogArg_apply, whiten, ← (hq k).prod, hC, conjTranspose_mul]
      simp only [Matrix.mul_assoc]
    have e1 : pdLogArg c R k = C * NormedSpace.exp (logmPos (w' k) (v' k)) * Cᴴ := by
      have h1 : R k = q k * pdLogArg q R k * (q k)ᴴ := (unwhiten hv (R k)).symm
      rw [pdLogArg_apply, hexp, whiten, hC, conjTranspose_mul]
      conv_lhs => rw [h1]
      simp only [Matrix.mul_assoc]
    have hCu : IsUnit C := by
      rw [hC]
      exact (IsUnit.of_mul_eq_one _ (inv_mul' hu)).mul hv
    have h0 := he k
    have h1 := he'' k
    rw [e0] at h0
    rw [show whiten (c k) (R k) = pdLogArg c R k from rfl, e1] at h1
    refine (posdef_triangle hCu hH h0 h1).trans_eq ?_
    congr 2
    rw [logmPos_eq]
    exact trDot_spectral (he' k).orth Real.log (w' k)

/-- C119, Hermitian positive definite matrices of determinant one. -/
theorem C119_special_hpd :
    IsMetricOn (SHPDPoint (κ := κ) (n := n)) Eq IsPdDist :=
  C119_positive_definite.mono fun _ h => h.1

end PD

/-! ### Positive semidefinite matrices -/

/-- C119, positive semidefinite matrices of fixed rank, real and complex: `dist` is a metric on the
matrices `Y Yᴴ`. -/
theorem C119_psd {n : Type*} [Fintype n] {k : ℕ} {𝕜 : Type*} [RCLike 𝕜] :
    IsMetricOn (FullRank (n := n) (k := k) (𝕜 := 𝕜)) (fun A B => A * Aᴴ = B * Bᴴ) IsPsdDist where
  total A B _ _ := by
    obtain ⟨d, hd⟩ := (C75_total A B).2
    obtain ⟨e, he⟩ := (C75_total B A).2
    exact ⟨d, hd, fun d' hd' => ((C75_metric hd').1 e he).trans ((C75_metric hd).1 e he).symm⟩
  nonneg A B d _ _ hd := (C75_metric hd).2.2.1
  zero A B d hA hB hd := (C75_metric hd).2.2.2 hA hB
  symm A B d _ _ hd := by
    obtain ⟨e, he⟩ := (C75_total B A).2
    rw [(C75_metric hd).1 e he]; exact he
  triangle A B C x y z _ _ _ hx hy hz := (C75_metric hx).2.1 C y z hy hz

/-! ### Groups -/

section Group
variable {κ n : Type*} [Fintype κ] [Fintype n] [DecidableEq n]

/-- C119, unitary group. -/
theorem C119_unitary : IsMetricOn (OnUnitary (κ := κ) (n := n) (𝕜 := ℂ)) Eq IsGDist where
  total A B hA hB := (C97_dist hA hB).1
  nonneg A B d hA hB hd := ((C97_dist hA hB).2 d hd).1
  zero A B d hA hB hd := ((C97_dist hA hB).2 d hd).2
  symm A B d hA hB hd := C97_dist_symm hA hB hd
  triangle A B C x y z hA hB hC hx hy hz := by
    obtain ⟨V, hV, rfl⟩ := hx
    obtain ⟨W, hW, rfl⟩ := hy
    obtain ⟨U, hU, rfl⟩ := hz
    have e : ∀ X V : Stack κ n n ℂ, gNorm X V = √(∑ k, trDot (V k) (V k)) := fun X V => by
      rw [← gNorm_sq X V]; exact (Real.sqrt_sq (stackNorm_nonneg _)).symm
    rw [e, e, e]
    refine sqrt_sum_triangle (fun _ => trDot_self_nonneg _) (fun _ => trDot_self_nonneg _)
      (fun _ => trDot_self_nonneg _) fun k => ?_
    have hV := (isGLog_iff hA hB).mp hV k
    have hW' := (isGLog_iff hB hC).mp hW k
    have hU := (isGLog_iff hA hC).mp hU k
    have hW'' : (W k)ᴴ = -W k := hW'.skew (quotient_unitary hB hC k)
    have h1 : (A k)ᴴ * C k = (A k)ᴴ * B k * NormedSpace.exp (W k) := by
      rw [hW'.exp, Matrix.mul_assoc, ← Matrix.mul_assoc (B k), hB.right, Matrix.one_mul]
    rw [h1] at hU
    exact unitary_triangle (quotient_unitary hA hB k) hW'' hV hU

/-- C119, special orthogonal group. -/
theorem C119_special_orthogonal :
    IsMetricOn (OnSO (κ := κ) (n := n)) Eq fun A B => IsGDist (cplx A) (cplx B) := by
  have h := C119_unitary (κ := κ) (n := n)
  have hc : ∀ X : Stack κ n n ℝ, OnSO X → OnUnitary (cplx X) := fun X hX => onUnitary_cplx hX.1
  exact {
    total := fun x y hx hy => h.total _ _ (hc x hx) (hc y hy)
    nonneg := fun x y d hx hy => h.nonneg _ _ d (hc x hx) (hc y hy)
    zero := fun x y d hx hy hd => (h.zero _ _ d (hc x hx) (hc y hy) hd).trans
      ⟨fun he => funext fun k => map_injective_real (congrFun he k), fun he => by rw [he]⟩
    symm := fun x y d hx hy => h.symm _ _ d (hc x hx) (hc y hy)
    triangle := fun x y z a b c hx hy hz =>
      h.triangle _ _ _ a b c (hc x hx) (hc y hy) (hc z hz) }

end Group

/-! ### Subspaces -/

section Grassmann
variable {κ n : Type*} [Fintype κ] [Fintype n] [DecidableEq n] {p : ℕ} {𝕜 : Type*} [RCLike 𝕜]

/-- Scalars as complex numbers. -/
noncomputable def toComplex : 𝕜 →+* ℂ where
  toFun x := ⟨RCLike.re x, RCLike.im x⟩
  map_one' := by apply Complex.ext <;> simp
  map_zero' := by apply Complex.ext <;> simp
  map_add' x y := by apply Complex.ext <;> simp
  map_mul' x y := by apply Complex.ext <;> simp

theorem toComplex_star (x : 𝕜) : toComplex (star x) = star (toComplex x) := by
  apply Complex.ext <;> simp [toComplex]

theorem toComplex_ofReal (x : ℝ) : toComplex ((x : ℝ) : 𝕜) = (x : ℂ) := by
  apply Complex.ext <;> simp [toComplex]

theorem map_toComplex_conjTranspose {m n : Type*} (A : Matrix m n 𝕜) :
    (A.map toComplex)ᴴ = Aᴴ.map toComplex := by
  ext i j
  exact (toComplex_star _).symm

theorem map_toComplex_one {n : Type*} [DecidableEq n] :
    (1 : Matrix n n 𝕜).map toComplex = 1 := Matrix.map_one _ (map_zero _) (map_one _)

theorem IsSVDAny.toComplex {m : Type*} [Fintype m] {A u : Matrix m (Fin p) 𝕜} {s : Fin p → ℝ}
    {vt : Matrix (Fin p) (Fin p) 𝕜} (h : IsSVDAny A u s vt) :
    IsSVDAny (A.map toComplex) (u.map toComplex) s (vt.map toComplex) where
  orthU := by rw [map_toComplex_conjTranspose, ← Matrix.map_mul, h.orthU, map_toComplex_one]
  orthV := by rw [map_toComplex_conjTranspose, ← Matrix.map_mul, h.orthV, map_toComplex_one]
  nonneg := h.nonneg
  prod := by
    conv_lhs => rw [h.prod]
    rw [Matrix.map_mul, Matrix.map_mul, Matrix.diagonal_map (map_zero _)]
    congr 3
    funext i
    exact toComplex_ofReal _

/-- The triangle inequality for principal angles, real and complex. -/
theorem grassmann_triangle' {X Y Z : Matrix n (Fin p) 𝕜} (hX : Xᴴ * X = 1) (hY : Yᴴ * Y = 1)
    (hZ : Zᴴ * Z = 1) {u₁ u₂ u₃ vt₁ vt₂ vt₃ : Matrix (Fin p) (Fin p) 𝕜} {s₁ s₂ s₃ : Fin p → ℝ}
    (h₁ : IsSVDAny (Xᴴ * Y) u₁ s₁ vt₁) (h₂ : IsSVDAny (Yᴴ * Z) u₂ s₂ vt₂)
    (h₃ : IsSVDAny (Xᴴ * Z) u₃ s₃ vt₃) :
    √(∑ i, svdAngle (s₃ i) ^ 2) ≤ √(∑ i, svdAngle (s₁ i) ^ 2) + √(∑ i, svdAngle (s₂ i) ^ 2) := by
  have e : ∀ X : Matrix n (Fin p) 𝕜, Xᴴ * X = 1 → (X.map toComplex)ᴴ * X.map toComplex = 1 :=
    fun X hX => by rw [map_toComplex_conjTranspose, ← Matrix.map_mul, hX, map_toComplex_one]
  have h₁ := h₁.toComplex
  have h₂ := h₂.toComplex
  have h₃ := h₃.toComplex
  rw [Matrix.map_mul, ← map_toComplex_conjTranspose] at h₁ h₂ h₃
  exact grassmann_triangle (e X hX) (e Y hY) (e Z hZ) h₁ h₂ h₃

/-- C119, Grassmann manifolds, real and complex: `dist` is a metric on the column spaces. -/
theorem C119_grassmann (hp : p ≤ Fintype.card n) :
    IsMetricOn (Orthonormal' (κ := κ) (n := n) (p := Fin p) (𝕜 := 𝕜)) SameSpan IsGrDist where
  total X Y _ _ := by
    obtain ⟨d, hd⟩ := (C71_total hp X Y).2.2
    obtain ⟨e, he⟩ := (C71_total hp Y X).2.2
    exact ⟨d, hd, fun d' hd' => (C72_symmetric hd' he).1.trans (C72_symmetric hd he).1.symm⟩
  nonneg X Y d _ _ hd := by
    obtain ⟨e, he⟩ := (C71_total hp Y X).2.2
    exact (C72_symmetric hd he).2
  zero X Y d hX hY hd := C72_zero hX hY hd
  symm X Y d _ _ hd := by
    obtain ⟨e, he⟩ := (C71_total hp Y X).2.2
    rw [(C72_symmetric hd he).1]; exact he
  triangle X Y Z a b c hX hY hZ ha hb hc := by
    obtain ⟨u₁, s₁, vt₁, h₁, rfl⟩ := ha
    obtain ⟨u₂, s₂, vt₂, h₂, rfl⟩ := hb
    obtain ⟨u₃, s₃, vt₃, h₃, rfl⟩ := hc
    have e : ∀ s : κ → Fin p → ℝ, grDist s = √(∑ k, ∑ i, svdAngle (s k i) ^ 2) := fun s => by
      rw [← grDist_sq, Real.sqrt_sq (grDist_nonneg _)]
    rw [e, e, e]
    exact sqrt_sum_triangle (fun _ => Finset.sum_nonneg fun _ _ => sq_nonneg _)
      (fun _ => Finset.sum_nonneg fun _ _ => sq_nonneg _)
      (fun _ => Finset.sum_nonneg fun _ _ => sq_nonneg _) fun k =>
        grassmann_triangle' (orthonormal_iff.mp hX k) (orthonormal_iff.mp hY k)
          (orthonormal_iff.mp hZ k) (h₁ k).any (h₂ k).any (h₃ k).any

end Grassmann

/-! ### Products -/

section Product
open Verif.Core
variable {A : Type*} [PyArr A] {ms : List (PyMfd A)}

theorem prodDist_ok_iff {ps qs : List (Val A)} (hp : ps.length = ms.length)
    (hq : qs.length = ms.length) (k k' : SeqKind) (x : ℝ) :
    prodDist ms (.seq k ps) (.seq k' qs) = .ok x ↔
      ∃ d : Fin ms.length → ℝ, (∀ i : Fin ms.length,
        ms[i].dist (ps[i.1]'(by omega)) (qs[i.1]'(by omega)) = .ok (d i)) ∧
        x = √(∑ i, d i ^ 2) := by
  rw [(C45_metric hp hq hq k k' k' x).2.2]
  constructor
  · rintro ⟨rs, ⟨hlen, h⟩, rfl⟩
    refine ⟨fun i => rs[i.1]'(by omega), fun i => ?_, ?_⟩
    · exact h i ms[i] _ _ _ (by simp) (List.getElem?_eq_getElem _) (List.getElem?_eq_getElem _)
        (List.getElem?_eq_getElem _)
    · congr 1
      have : rs.map (fun d => d ^ 2) = List.ofFn fun i : Fin ms.length => (rs[i.1]'(by omega)) ^ 2 := by
        apply List.ext_getElem
        · simp [hlen]
        · intro i h1 h2; simp
      rw [this, List.sum_ofFn]
  · rintro ⟨d, h, rfl⟩
    refine ⟨List.ofFn d, ⟨by simp, ?_⟩, ?_⟩
    · intro i M p v r hM hp' hv' hr
      obtain ⟨hi, rfl⟩ := List.getElem?_eq_some_iff.mp hM
      obtain ⟨_, rfl⟩ := List.getElem?_eq_some_iff.mp hp'
      obtain ⟨_, rfl⟩ := List.getElem?_eq_some_iff.mp hv'
      obtain ⟨_, rfl⟩ := List.getElem?_eq_some_iff.mp hr
      simpa using h ⟨i, hi⟩
    · congr 1
      rw [List.map_ofFn, List.sum_ofFn]
      rfl

/-- Points of a product: lists (or tuples) of one point of each factor. -/
def ProductPoint (ms : List (PyMfd A)) (P : ℕ → Val A → Prop) (p : Val A) : Prop :=
  ∃ k ps, p = .seq k ps ∧ ps.length = ms.length ∧ ∀ i x, ps[i]? = some x → P i x

/-- The components of two points of a product represent the same elements of the factors. -/
def ProductSame (same : ℕ → Val A → Val A → Prop) (p q : Val A) : Prop :=
  ∃ k ps k' qs, p = .seq k ps ∧ q = .seq k' qs ∧
    ∀ i x y, ps[i]? = some x → qs[i]? = some y → same i x y

/-- C119, products: if `dist` of every factor is a metric then so is `dist` of the product. -/
theorem C119_product {P : ℕ → Val A → Prop} {same : ℕ → Val A → Val A → Prop}
    (h : ∀ i M, ms[i]? = some M → IsMetricOn (P i) (same i) fun x y d => M.dist x y = .ok d) :
    IsMetricOn (ProductPoint ms P) (ProductSame same) fun p q d => prodDist ms p q = .ok d := by
  have h' : ∀ i : Fin ms.length,
      IsMetricOn (P i) (same i) fun x y d => ms[i].dist x y = .ok d := fun i => h i _ (by simp)
  have hP : ∀ {ps : List (Val A)} (hl : ps.length = ms.length) (_ : ∀ i x, ps[i]? = some x → P i x)
      (i : Fin ms.length), P i (ps[i.1]'(by omega)) := fun hl hps i =>
    hps i _ (List.getElem?_eq_getElem _)
  refine ⟨?_, ?_, ?_, ?_, ?_⟩
  · rintro _ _ ⟨k, ps, rfl, hl, hp⟩ ⟨k', qs, rfl, hl', hq⟩
    choose d hd using fun i : Fin ms.length => (h' i).total _ _ (hP hl hp i) (hP hl' hq i)
    refine ⟨_, (prodDist_ok_iff hl hl' k k' _).mpr ⟨d, fun i => (hd i).1, rfl⟩, fun y hy => ?_⟩
    obtain ⟨e, he, rfl⟩ := (prodDist_ok_iff hl hl' k k' y).mp hy
    rw [show e = d from funext fun i => (hd i).2 _ (he i)]
  · rintro _ _ x ⟨k, ps, rfl, hl, hp⟩ ⟨k', qs, rfl, hl', hq⟩ hx
    obtain ⟨e, -, rfl⟩ := (prodDist_ok_iff hl hl' k k' x).mp hx
    exact Real.sqrt_nonneg _
  · rintro _ _ x ⟨k, ps, rfl, hl, hp⟩ ⟨k', qs, rfl, hl', hq⟩ hx
    obtain ⟨d, hd, rfl⟩ := (prodDist_ok_iff hl hl' k k' x).mp hx
    rw [Real.sqrt_eq_zero (Finset.sum_nonneg fun _ _ => sq_nonneg _),
      Finset.sum_eq_zero_iff_of_nonneg fun _ _ => sq_nonneg _]
    constructor
    · intro h0
      refine ⟨k, ps, k', qs, rfl, rfl, fun i x y hx hy => ?_⟩
      obtain ⟨hi, rfl⟩ := List.getElem?_eq_some_iff.mp hx
      obtain ⟨hi', rfl⟩ := List.getElem?_eq_some_iff.mp hy
      have hj : i < ms.length := by omega
      exact ((h' ⟨i, hj⟩).zero _ _ _ (hP hl hp _) (hP hl' hq _) (hd ⟨i, hj⟩)).mp
        (pow_eq_zero_iff two_ne_zero |>.mp (h0 ⟨i, hj⟩ (Finset.mem_univ _)))
    · rintro ⟨_, _, _, _, he, he', hs⟩ i -
      injection he with _ he
      injection he' with _ he'
      subst he he'
      rw [((h' i).zero _ _ _ (hP hl hp i) (hP hl' hq i) (hd i)).mpr
        (hs i _ _ (List.getElem?_eq_getElem _) (List.getElem?_eq_getElem _))]
      simp
  · rintro _ _ x ⟨k, ps, rfl, hl, hp⟩ ⟨k', qs, rfl, hl', hq⟩ hx
    obtain ⟨d, hd, rfl⟩ := (prodDist_ok_iff hl hl' k k' x).mp hx
    exact (prodDist_ok_iff hl' hl k' k _).mpr
      ⟨d, fun i => (h' i).symm _ _ _ (hP hl hp i) (hP hl' hq i) (hd i), rfl⟩
  · rintro _ _ _ x y z ⟨k, ps, rfl, hl, hp⟩ ⟨k', qs, rfl, hl', hq⟩ ⟨k'', rs, rfl, hl'', hr⟩ hx hy hz
    obtain ⟨a, ha, rfl⟩ := (prodDist_ok_iff hl hl' k k' x).mp hx
    obtain ⟨b, hb, rfl⟩ := (prodDist_ok_iff hl' hl'' k' k'' y).mp hy
    obtain ⟨c, hc, rfl⟩ := (prodDist_ok_iff hl hl'' k k'' z).mp hz
    refine sqrt_sum_triangle (fun _ => sq_nonneg _) (fun _ => sq_nonneg _) (fun _ => sq_nonneg _)
      fun i => ?_
    rw [Real.sqrt_sq ((h' i).nonneg _ _ _ (hP hl hp i) (hP hl' hq i) (ha i)),
      Real.sqrt_sq ((h' i).nonneg _ _ _ (hP hl' hq i) (hP hl'' hr i) (hb i)),
      Real.sqrt_sq ((h' i).nonneg _ _ _ (hP hl hp i) (hP hl'' hr i) (hc i))]
    exact (h' i).triangle _ _ _ _ _ _ (hP hl hp i) (hP hl' hq i) (hP hl'' hr i) (ha i) (hb i) (hc i)

end Product

/-! ### The hypotheses can be met -/

/-- Points at distance `π / 2` on the circle. -/
example : OnSphere ![(1 : ℝ), 0] ∧ OnSphere ![(0 : ℝ), 1] ∧
    sphereDist ![(1 : ℝ), 0] ![(0 : ℝ), 1] = Real.pi / 2 := by
  refine ⟨by simp [OnSphere, Fin.sum_univ_two], by simp [OnSphere, Fin.sum_univ_two], ?_⟩
  simp [sphereDist, sphereInner, tensordot, Fin.sum_univ_two]

/-- Two orthonormal frames of one line. -/
example : Orthonormal' (κ := Unit) (fun _ => !![(1 : ℝ); 0]) ∧
    Orthonormal' (κ := Unit) (fun _ => !![(-1 : ℝ); 0]) ∧
    SameSpan (κ := Unit) (fun _ => !![(1 : ℝ); 0]) (fun _ => !![(-1 : ℝ); 0]) := by
  refine ⟨?_, ?_, fun _ => ⟨⟨!![-1], ?_⟩, ⟨!![-1], ?_⟩⟩⟩
  · intro k i j; fin_cases i; fin_cases j; simp [Fin.sum_univ_two]
  · intro k i j; fin_cases i; fin_cases j; simp [Fin.sum_univ_two]
  · ext i j; fin_cases i <;> fin_cases j <;> simp
  · ext i j; fin_cases i <;> fin_cases j <;> simp

/-- A product of two lines, with points at distance five. -/
example : (∀ (i : ℕ) (M : Verif.Core.PyMfd ℝ), [Verif.Core.scaledLine, Verif.Core.scaledLine][i]? = some M →
    IsMetricOn (fun v => ∃ x : ℝ, v = Verif.Core.Val.arr x) Eq fun x y d => M.dist x y = .ok d) ∧
    Verif.Core.prodDist [Verif.Core.scaledLine, Verif.Core.scaledLine]
      (.seq .list [.arr 0, .arr 0]) (.seq .list [.arr 3, .arr 4]) = .ok 5 := by
  constructor
  · intro i M hM
    have hM' : M = Verif.Core.scaledLine := by
      match i, hM with
      | 0, h => exact (Option.some.inj h).symm
      | 1, h => exact (Option.some.inj h).symm
    subst hM'
    refine ⟨?_, ?_, ?_, ?_, ?_⟩
    · rintro _ _ ⟨x, rfl⟩ ⟨y, rfl⟩
      exact ⟨|x - y|, rfl, fun d hd => (Except.ok.inj hd).symm⟩
    · rintro _ _ d ⟨x, rfl⟩ ⟨y, rfl⟩ hd
      rw [← Except.ok.inj hd]; exact abs_nonneg _
    · rintro _ _ d ⟨x, rfl⟩ ⟨y, rfl⟩ hd
      rw [← Except.ok.inj hd, abs_eq_zero, sub_eq_zero]
      exact ⟨fun h => by rw [h], fun h => by injection h⟩
    · rintro _ _ d ⟨x, rfl⟩ ⟨y, rfl⟩ hd
      rw [← hd]; exact congrArg _ (abs_sub_comm _ _)
    · rintro _ _ _ a b c ⟨x, rfl⟩ ⟨y, rfl⟩ ⟨z, rfl⟩ ha hb hc
      rw [← Except.ok.inj ha, ← Except.ok.inj hb, ← Except.ok.inj hc]
      exact abs_sub_le _ _ _
  · refine (prodDist_ok_iff rfl rfl _ _ _).mpr ⟨![3, 4], ?_, ?_⟩
    · intro i
      match i with
      | ⟨0, _⟩ => simp [Verif.Core.scaledLine]
      | ⟨1, _⟩ => simp [Verif.Core.scaledLine]
    · rw [Eq.comm, Real.sqrt_eq_iff_mul_self_eq_of_pos (by norm_num)]
      change 5 * 5 = ∑ i : Fin 2, _
      rw [Fin.sum_univ_two]; norm_num

end Verif.Geo
