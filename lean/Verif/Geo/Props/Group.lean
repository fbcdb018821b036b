/-
Properties of the special orthogonal and unitary groups (C95, C96, C98, C99 and the parts of C55
and C101 about them); `manifolds/group.py`.
-/
import Verif.Geo.Model.Group
import Verif.Geo.Props.Stiefel
import Verif.Geo.Lemmas.Exists
import Mathlib.LinearAlgebra.Matrix.Block
import Mathlib.Topology.Order.IntermediateValue

namespace Verif.Geo
open scoped BigOperators
open Matrix

variable {κ n : Type*} [Fintype κ] [Fintype n] [DecidableEq n] {𝕜 : Type*} [RCLike 𝕜]

/-! ### Specification -/

/-- Every matrix of the stack is orthogonal (unitary). -/
def OnUnitary (X : Stack κ n n 𝕜) : Prop := ∀ k, (X k)ᴴ * X k = 1

/-- Every matrix of the stack is a rotation. -/
def OnSO (X : Stack κ n n ℝ) : Prop := OnUnitary X ∧ ∀ k, (X k).det = 1

/-- Every matrix of the stack is skew-symmetric (skew-Hermitian). -/
def InLie (V : Stack κ n n 𝕜) : Prop := ∀ k, (V k)ᴴ = -V k

/-- Ambient tangent vectors of the group at `X`. -/
def GroupTangent (X W : Stack κ n n 𝕜) : Prop := ∀ k, (X k)ᴴ * W k = -((W k)ᴴ * X k)

/-! ### Lemmas -/

omit [Fintype κ] [Fintype n] [DecidableEq n] in
theorem inLie_subspace : IsSubspace (E := Stack κ n n 𝕜) InLie where
  zero := fun k => by simp
  add := fun hu hv k => by rw [Pi.add_apply, conjTranspose_add, hu k, hv k, neg_add]
  smul := fun c u hu k => by
    rw [Pi.smul_apply, conjTranspose_smul, hu k, smul_neg, star_trivial]

omit [Fintype κ] [DecidableEq n] in
theorem groupTangent_subspace (X : Stack κ n n 𝕜) :
    IsSubspace (E := Stack κ n n 𝕜) (GroupTangent X) where
  zero := fun k => by simp
  add := fun hu hv k => by
    rw [Pi.add_apply, conjTranspose_add, Matrix.mul_add, Matrix.add_mul, hu k, hv k, neg_add]
  smul := fun c u hu k => by
    rw [Pi.smul_apply, conjTranspose_smul, Matrix.mul_smul, Matrix.smul_mul, hu k, smul_neg,
      star_trivial]

/-- Skew-Hermitian part of a matrix. -/
noncomputable def skewPart (A : Matrix n n 𝕜) : Matrix n n 𝕜 := (1 / 2 : ℝ) • (A - Aᴴ)

/-- Hermitian part of a matrix. -/
noncomputable def hermPart (A : Matrix n n 𝕜) : Matrix n n 𝕜 := (1 / 2 : ℝ) • (A + Aᴴ)

omit [Fintype n] [DecidableEq n] in
theorem skewPart_conjTranspose (A : Matrix n n 𝕜) : (skewPart A)ᴴ = -skewPart A := by
  rw [skewPart, conjTranspose_smul, conjTranspose_sub, conjTranspose_conjTranspose, star_trivial,
    ← smul_neg, neg_sub]

omit [Fintype n] [DecidableEq n] in
theorem hermPart_conjTranspose (A : Matrix n n 𝕜) : (hermPart A)ᴴ = hermPart A := by
  rw [hermPart, conjTranspose_smul, conjTranspose_add, conjTranspose_conjTranspose, star_trivial,
    add_comm]

omit [Fintype n] [DecidableEq n] in
theorem skewPart_add_hermPart (A : Matrix n n 𝕜) : skewPart A + hermPart A = A := by
  rw [skewPart, hermPart]; module

omit [Fintype n] [DecidableEq n] in
theorem skewPart_add (A B : Matrix n n 𝕜) : skewPart (A + B) = skewPart A + skewPart B := by
  simp only [skewPart, conjTranspose_add]; module

omit [Fintype n] [DecidableEq n] in
theorem skewPart_sub (A B : Matrix n n 𝕜) : skewPart (A - B) = skewPart A - skewPart B := by
  simp only [skewPart, conjTranspose_sub]; module

omit [Fintype n] [DecidableEq n] in
theorem skewPart_of_skew {A : Matrix n n 𝕜} (h : Aᴴ = -A) : skewPart A = A := by
  rw [skewPart, h]; module

omit [Fintype n] [DecidableEq n] in
theorem skewPart_of_herm {A : Matrix n n 𝕜} (h : Aᴴ = A) : skewPart A = 0 := by
  rw [skewPart, h, sub_self, smul_zero]

omit [DecidableEq n] in
/-- Pairing with a skew-Hermitian matrix only sees the skew-Hermitian part. -/
theorem trDot_skewPart {A V : Matrix n n 𝕜} (hV : Vᴴ = -V) : trDot (skewPart A) V = trDot A V := by
  conv_rhs => rw [← skewPart_add_hermPart A, trDot_inner.add_left,
    trDot_herm_skew (hermPart_conjTranspose A) hV, add_zero]

omit [Fintype κ] [Fintype n] [DecidableEq n] in
theorem multiskewh_apply (A : Stack κ n n 𝕜) (k : κ) : multiskewh A k = skewPart (A k) := rfl

omit [Fintype κ] [Fintype n] [DecidableEq n] in
theorem multiherm_eq_hermPart (A : Stack κ n n 𝕜) (k : κ) : multiherm A k = hermPart (A k) := rfl

omit [Fintype κ] [Fintype n] [DecidableEq n] in
theorem multihconj_apply' (A : Stack κ n n 𝕜) (k : κ) : multihconj A k = (A k)ᴴ := rfl

omit [Fintype κ] [DecidableEq n] in
theorem gProj_real (X V : Stack κ n n ℝ) (k : κ) : gProj X V k = skewPart ((X k)ᴴ * V k) := by
  rw [skewPart, conjTranspose_eq_transpose_of_trivial ((X k)ᴴ * V k)]
  rfl

omit [Fintype κ] in
theorem OnUnitary.right {X : Stack κ n n 𝕜} (hX : OnUnitary X) (k : κ) : X k * (X k)ᴴ = 1 :=
  mul_eq_one_comm.mp (hX k)

omit [Fintype κ] in
theorem groupTangent_iff {X : Stack κ n n 𝕜} (hX : OnUnitary X) {W : Stack κ n n 𝕜} :
    GroupTangent X W ↔ ∃ V, InLie V ∧ W = gEmbed X V := by
  constructor
  · intro h
    refine ⟨fun k => (X k)ᴴ * W k, fun k => ?_, funext fun k => ?_⟩
    · change ((X k)ᴴ * W k)ᴴ = -((X k)ᴴ * W k)
      rw [conjTranspose_mul, conjTranspose_conjTranspose, h k, neg_neg]
    · change W k = X k * ((X k)ᴴ * W k)
      rw [← Matrix.mul_assoc, hX.right, Matrix.one_mul]
  · rintro ⟨V, hV, rfl⟩ k
    change (X k)ᴴ * (X k * V k) = -((X k * V k)ᴴ * X k)
    rw [conjTranspose_mul, Matrix.mul_assoc _ _ (X k), hX k, Matrix.mul_one, ← Matrix.mul_assoc,
      hX k, Matrix.one_mul, hV k, neg_neg]

omit [DecidableEq n] in
theorem gInner_eq (X A B : Stack κ n n 𝕜) : gInner X A B = ∑ k, ((A k)ᴴ * B k).trace := by
  rw [gInner, Fintype.sum_prod_type]
  refine Finset.sum_congr rfl fun k _ => ?_
  rw [Fintype.sum_prod_type, Finset.sum_comm]
  rfl

/-- The orthogonal projection onto the ambient tangent space. -/
theorem group_orthProj (X : Stack κ n n 𝕜) (hX : OnUnitary X) :
    IsOrthProj (E := Stack κ n n 𝕜) stackDot (GroupTangent X)
      fun W => gEmbed X fun k => skewPart ((X k)ᴴ * W k) := by
  refine (stackDot_inner (κ := κ) (m := n) (n := n) (𝕜 := 𝕜)).orthProj (groupTangent_subspace X)
    (fun W => (groupTangent_iff hX).mpr ⟨_, fun k => skewPart_conjTranspose _, rfl⟩) ?_
  intro W Z hZ
  obtain ⟨V, hV, rfl⟩ := (groupTangent_iff hX).mp hZ
  rw [stackDot_eq]
  refine Finset.sum_eq_zero fun k _ => ?_
  change trDot (W k - X k * skewPart ((X k)ᴴ * W k)) (X k * V k) = 0
  rw [trDot_inner.sub_left, trDot_mul_left, ← Matrix.mul_assoc, hX k, Matrix.one_mul,
    trDot_skewPart (hV k), trDot_mul_left, conjTranspose_conjTranspose, sub_self]

/-! ### C95 -/

omit [DecidableEq n] in
/-- C95: on the Lie algebra `inner_product` is real, it is an inner product, and `norm` is its
square root. -/
theorem C95_metric (X : Stack κ n n 𝕜) :
    (∀ A B, InLie A → InLie B → ((RCLike.re (gInner X A B) : ℝ) : 𝕜) = gInner X A B) ∧
      IsInnerOn (E := Stack κ n n 𝕜) InLie (fun A B => RCLike.re (gInner X A B)) ∧
      ∀ A, gNorm X A = Real.sqrt (RCLike.re (gInner X A A)) := by
  have hre : ∀ A B : Stack κ n n 𝕜, RCLike.re (gInner X A B) = stackDot A B := fun A B => rfl
  refine ⟨fun A B hA hB => ?_, ?_, fun A => ?_⟩
  · rw [← RCLike.conj_eq_iff_re, gInner_eq, map_sum]
    refine Finset.sum_congr rfl fun k _ => ?_
    have h1 : starRingEnd 𝕜 ((A k)ᴴ * B k).trace = (((A k)ᴴ * B k)ᴴ).trace :=
      (trace_conjTranspose _).symm
    rw [h1, conjTranspose_mul, conjTranspose_conjTranspose, hB k, hA k, trace_mul_comm,
      Matrix.mul_neg, Matrix.neg_mul]
  · exact (stackDot_inner (κ := κ) (m := n) (n := n) (𝕜 := 𝕜)).on InLie
  · rw [hre]
    exact stackNorm_eq_sqrt A

/-- C95: `embedding` identifies the Lie algebra with the ambient tangent space and preserves the
inner product. -/
theorem C95_embedding (X : Stack κ n n 𝕜) (hX : OnUnitary X) :
    (∀ V, InLie V → GroupTangent X (gEmbed X V)) ∧
      (∀ W, GroupTangent X W → ∃! V, InLie V ∧ gEmbed X V = W) ∧
      ∀ A B, stackDot (gEmbed X A) (gEmbed X B) = stackDot A B := by
  refine ⟨fun V hV => (groupTangent_iff hX).mpr ⟨V, hV, rfl⟩, fun W hW => ?_, fun A B => ?_⟩
  · obtain ⟨V, hV, rfl⟩ := (groupTangent_iff hX).mp hW
    refine ⟨V, ⟨hV, rfl⟩, ?_⟩
    rintro V' ⟨-, h⟩
    funext k
    have := congrArg (fun M => (X k)ᴴ * M) (congrFun h k)
    change (X k)ᴴ * (X k * V' k) = (X k)ᴴ * (X k * V k) at this
    rwa [← Matrix.mul_assoc, ← Matrix.mul_assoc, hX k, Matrix.one_mul, Matrix.one_mul] at this
  · rw [stackDot_eq, stackDot_eq]
    refine Finset.sum_congr rfl fun k _ => ?_
    change trDot (X k * A k) (X k * B k) = _
    rw [trDot_mul_left, ← Matrix.mul_assoc, hX k, Matrix.one_mul]

omit [Fintype κ] in
/-- C95: the ambient tangent vectors are the velocities of curves in the group. -/
theorem C95_tangent_space (X W : Stack κ n n 𝕜) (hX : OnUnitary X) :
    GroupTangent X W ↔
      ∃ c : ℝ → Stack κ n n 𝕜, (∀ t, OnUnitary (c t)) ∧ c 0 = X ∧ StackDeriv c W 0 := by
  constructor
  · intro hW
    obtain ⟨V, hV, rfl⟩ := (groupTangent_iff hX).mp hW
    refine ⟨fun t => gExp X (t • V), fun t k => ?_, ?_, ?_⟩
    · change (X k * NormedSpace.exp (t • V k))ᴴ * (X k * NormedSpace.exp (t • V k)) = 1
      rw [conjTranspose_mul, Matrix.mul_assoc, ← Matrix.mul_assoc _ (X k), hX k, Matrix.one_mul,
        ← exp_conjTranspose, conjTranspose_smul, hV k, star_trivial, smul_neg,
        ← exp_add_of_commute _ _ (Commute.neg_left (Commute.refl (t • V k))), neg_add_cancel,
        NormedSpace.exp_zero]
    · funext k
      change X k * NormedSpace.exp ((0 : ℝ) • V k) = X k
      rw [zero_smul, NormedSpace.exp_zero, Matrix.mul_one]
    · rw [stackDeriv_iff]
      intro k
      refine ((MatDeriv.const (X k) 0).mul (matDeriv_exp (V k) 0)).congr_deriv ?_
      rw [zero_smul, NormedSpace.exp_zero, Matrix.one_mul, Matrix.zero_mul, zero_add]
      rfl
  · rintro ⟨c, hon, rfl, hc⟩ k
    have h1 := MatDeriv.mul (MatDeriv.conjTranspose (hc k)) (hc k)
    have h2 : MatDeriv (fun s => (c s k)ᴴ * c s k) 0 0 :=
      (MatDeriv.const 1 0).congr_fun fun s => hon s k
    have := h1.unique h2
    rw [add_comm] at this
    exact eq_neg_of_add_eq_zero_left this

/-- C95 for the special orthogonal group: `projection` returns Lie algebra elements, and they
represent the orthogonal projection of the ambient vector onto the tangent space. -/
theorem C95_so_projection (X : Stack κ n n ℝ) (hX : OnUnitary X) :
    (∀ W, InLie (gProj X W)) ∧
      IsOrthProj (E := Stack κ n n ℝ) stackDot (GroupTangent X) (fun W => gEmbed X (gProj X W)) ∧
      ∀ V, InLie V → gProj X (gEmbed X V) = V := by
  refine ⟨fun W k => ?_, ?_, fun V hV => funext fun k => ?_⟩
  · rw [gProj_real]; exact skewPart_conjTranspose _
  · have h := group_orthProj X hX
    have e : (fun W => gEmbed X fun k => skewPart ((X k)ᴴ * W k)) =
        fun W => gEmbed X (gProj X W) := by
      funext W k
      change X k * _ = X k * gProj X W k
      rw [gProj_real]
    rwa [e] at h
  · rw [gProj_real]
    change skewPart ((X k)ᴴ * (X k * V k)) = V k
    rw [← Matrix.mul_assoc, hX k, Matrix.one_mul, skewPart_of_skew (hV k)]

omit [DecidableEq n] in
/-- C95 for the special orthogonal group: the converted gradient represents the directional
derivative: its inner product with a tangent vector is the pairing of the Euclidean gradient with
the embedded vector. -/
theorem C95_so_gradient (X G : Stack κ n n ℝ) :
    InLie (gE2rg X G) ∧
      ∀ V, InLie V → gInner X (gE2rg X G) V = ∑ k, ∑ i, ∑ j, G k i j * gEmbed X V k i j := by
  refine ⟨fun k => ?_, fun V hV => ?_⟩
  · change (gProj X G k)ᴴ = -gProj X G k
    rw [gProj_real]; exact skewPart_conjTranspose _
  · have h1 : gInner X (gE2rg X G) V = stackDot (gProj X G) V := rfl
    have h2 : ∑ k, ∑ i, ∑ j, G k i j * gEmbed X V k i j = stackDot G (gEmbed X V) := by
      rw [stackDot_eq]
      refine Finset.sum_congr rfl fun k _ => ?_
      rw [trDot_eq_sum]
      rfl
    rw [h1, h2, stackDot_eq, stackDot_eq]
    refine Finset.sum_congr rfl fun k _ => ?_
    rw [gProj_real, trDot_skewPart (hV k)]
    change _ = trDot (G k) (X k * V k)
    rw [trDot_mul_left, conjTranspose_conjTranspose]

omit [Fintype κ] [DecidableEq n] in
/-- C95 for the unitary group, as far as it holds: the projection represents the orthogonal
projection exactly for the ambient vectors with real `Xᴴ W`. -/
theorem C95_unitary_partial (X W : Stack κ n n ℂ) :
    gProj X W = (fun k => skewPart ((X k)ᴴ * W k)) ↔ ∀ k i j, (((X k)ᴴ * W k) i j).im = 0 := by
  have key : ∀ k i j, gProj X W k i j = skewPart ((X k)ᴴ * W k) i j ↔
      (((X k)ᴴ * W k) j i).im = 0 := by
    intro k i j
    change (1 / 2 : ℝ) • (((X k)ᴴ * W k) i j - ((X k)ᴴ * W k) j i) =
      (1 / 2 : ℝ) • (((X k)ᴴ * W k) i j - star (((X k)ᴴ * W k) j i)) ↔ _
    rw [smul_right_inj (by norm_num), sub_right_inj, ← Complex.conj_eq_iff_im]
    exact ⟨fun h => h.symm, fun h => h.symm⟩
  constructor
  · intro h k i j
    exact (key k j i).mp (congrFun (congrFun (congrFun h k) j) i)
  · intro h
    funext k
    ext i j
    exact (key k i j).mpr (h k j i)

omit [Fintype κ] in
/-- C95 fails for the unitary group: at every point there is a non-zero tangent vector that
`projection` sends to zero, so the converted gradient of a cost function with this Euclidean
gradient vanishes although the directional derivative along it is not zero. -/
theorem C95_unitary_negation [Nonempty κ] [Nonempty n] (X : Stack κ n n ℂ) (hX : OnUnitary X) :
    ∃ V, InLie V ∧ V ≠ 0 ∧ gProj X (gEmbed X V) = 0 ∧ gE2rg X (gEmbed X V) = 0 := by
  have hz : gProj X (gEmbed X fun _ => Complex.I • 1) = 0 := by
    funext k
    change (1 / 2 : ℝ) • ((X k)ᴴ * (X k * Complex.I • 1) - ((X k)ᴴ * (X k * Complex.I • 1))ᵀ) = 0
    rw [← Matrix.mul_assoc, hX k, Matrix.one_mul, transpose_smul, transpose_one, sub_self,
      smul_zero]
  refine ⟨fun _ => Complex.I • 1, fun k => ?_, fun h => ?_, hz, hz⟩
  · rw [conjTranspose_smul, conjTranspose_one, ← neg_smul]
    congr 1
    simp
  · obtain ⟨k⟩ := ‹Nonempty κ›
    obtain ⟨i⟩ := ‹Nonempty n›
    have := congrFun (congrFun (congrFun h k) i) i
    simp at this

omit [Fintype κ] in
/-- C95 fails for the unitary group: for matrices of size at least two the result of `projection`
need not even be in the Lie algebra, at any point. -/
theorem C95_unitary_not_lie [Nonempty κ] [Nontrivial n] (X : Stack κ n n ℂ) (hX : OnUnitary X) :
    ∃ W, ¬ InLie (gProj X W) := by
  obtain ⟨a, b, hab⟩ := exists_pair_ne n
  obtain ⟨k⟩ := ‹Nonempty κ›
  refine ⟨gEmbed X fun _ => Matrix.single a b Complex.I, fun h => ?_⟩
  have h1 : gProj X (gEmbed X fun _ => Matrix.single a b Complex.I) k =
      (1 / 2 : ℝ) • (Matrix.single a b Complex.I - Matrix.single b a Complex.I) := by
    change (1 / 2 : ℝ) • ((X k)ᴴ * (X k * _) - ((X k)ᴴ * (X k * _))ᵀ) = _
    rw [← Matrix.mul_assoc, hX k, Matrix.one_mul, transpose_single]
  have h2 := congrFun (congrFun (h k) a) b
  rw [h1] at h2
  simp [Matrix.single, hab, hab.symm] at h2
  have := congrArg Complex.im h2
  norm_num at this

omit [Fintype κ] [Fintype n] [DecidableEq n] in
/-- C55 for the groups: `to_tangent_space` returns Lie algebra elements and does not change
them. -/
theorem C55_group (X V : Stack κ n n 𝕜) :
    InLie (gToTangent X V) ∧ (InLie V → gToTangent X V = V) :=
  ⟨fun _ => skewPart_conjTranspose _, fun h => funext fun k => skewPart_of_skew (h k)⟩

/-! ### C96 -/

omit [Fintype κ] in
theorem gRetractArg_gram {X V : Stack κ n n 𝕜} (hX : OnUnitary X) (hV : InLie V) (k : κ) :
    (gRetractArg X V k)ᴴ * gRetractArg X V k = 1 + (V k)ᴴ * V k := by
  have e : gRetractArg X V k = X k * (1 + V k) := by
    change X k + X k * V k = _
    rw [Matrix.mul_add, Matrix.mul_one]
  rw [e, conjTranspose_mul, Matrix.mul_assoc, ← Matrix.mul_assoc _ (X k), hX k, Matrix.one_mul,
    conjTranspose_add, conjTranspose_one, Matrix.add_mul, Matrix.mul_add, Matrix.mul_add,
    Matrix.one_mul, Matrix.one_mul, Matrix.mul_one, hV k]
  abel

theorem exp_lie {A : Matrix n n 𝕜} (hA : Aᴴ = -A) :
    (NormedSpace.exp A)ᴴ * NormedSpace.exp A = 1 := by
  rw [← exp_conjTranspose, hA, ← exp_add_of_commute _ _ (Commute.neg_left (Commute.refl A)),
    neg_add_cancel, NormedSpace.exp_zero]

theorem orth_det {A : Matrix n n ℝ} (h : Aᴴ * A = 1) : A.det = 1 ∨ A.det = -1 := by
  have h1 : A.det * A.det = 1 := by
    have := congrArg Matrix.det h
    rwa [det_mul, conjTranspose_eq_transpose_of_trivial, det_transpose, det_one] at this
  exact mul_self_eq_one_iff.mp h1

theorem orth_det_pos {A : Matrix n n ℝ} (h : Aᴴ * A = 1) (hp : 0 < A.det) : A.det = 1 :=
  (orth_det h).resolve_right fun e => by rw [e] at hp; norm_num at hp

/-- The matrix exponential has positive determinant. -/
theorem det_exp_pos (A : Matrix n n ℝ) : 0 < (NormedSpace.exp A).det := by
  have h : NormedSpace.exp A = NormedSpace.exp ((1 / 2 : ℝ) • A) * NormedSpace.exp ((1 / 2 : ℝ) • A) := by
    rw [← exp_add_of_commute _ _ (Commute.refl _), ← add_smul]
    norm_num
  have hne : (NormedSpace.exp A).det ≠ 0 := by
    have h2 : NormedSpace.exp A * NormedSpace.exp (-A) = 1 := by
      rw [← exp_add_of_commute _ _ (Commute.neg_right (Commute.refl A)), add_neg_cancel,
        NormedSpace.exp_zero]
    intro h0
    have := congrArg Matrix.det h2
    rw [det_mul, h0, zero_mul, det_one] at this
    exact zero_ne_one this
  refine lt_of_le_of_ne ?_ hne.symm
  rw [h, det_mul]
  exact mul_self_nonneg _

theorem one_add_skew_gram {V : Matrix n n ℝ} (hV : Vᴴ = -V) :
    (1 + V)ᴴ * (1 + V) = 1 + Vᴴ * V := by
  rw [conjTranspose_add, conjTranspose_one, Matrix.add_mul, Matrix.mul_add, Matrix.mul_add,
    Matrix.one_mul, Matrix.one_mul, Matrix.mul_one, hV]
  abel

/-- `det (1 + V)` is positive for skew-symmetric `V`: it does not vanish along `t V`. -/
theorem det_one_add_skew_pos {V : Matrix n n ℝ} (hV : Vᴴ = -V) : 0 < (1 + V).det := by
  have hne : ∀ t : ℝ, (1 + t • V).det ≠ 0 := by
    intro t h0
    have ht : (t • V)ᴴ = -(t • V) := by
      rw [conjTranspose_smul, hV, star_trivial, smul_neg]
    obtain ⟨d, hd, he⟩ := one_le_det_one_add_gram (t • V)
    rw [← one_add_skew_gram ht, det_mul, h0, mul_zero] at he
    have : d = 0 := he.symm
    linarith
  by_contra hneg
  have hcont : Continuous fun t : ℝ => (1 + t • V).det :=
    (continuous_const.add (continuous_id.smul continuous_const)).matrix_det
  have h0 : (0 : ℝ) ∈ Set.Icc ((1 + (1 : ℝ) • V).det) ((1 + (0 : ℝ) • V).det) := by
    rw [one_smul, zero_smul, add_zero, det_one]
    exact ⟨not_lt.mp hneg, zero_le_one⟩
  obtain ⟨t, -, ht⟩ := intermediate_value_Icc' (zero_le_one' ℝ) hcont.continuousOn h0
  exact hne t ht

omit [Fintype κ] in
theorem gRetractArg_det {X V : Stack κ n n ℝ} (hX : OnSO X) (hV : InLie V) (k : κ) :
    0 < (gRetractArg X V k).det := by
  have e : gRetractArg X V k = X k * (1 + V k) := by
    change X k + X k * V k = _
    rw [Matrix.mul_add, Matrix.mul_one]
  rw [e, det_mul, hX.2 k, one_mul]
  exact det_one_add_skew_pos (hV k)

omit [Fintype κ] in
/-- C96: the exponential stays in the group. -/
theorem C96_exp {X V : Stack κ n n 𝕜} (hX : OnUnitary X) (hV : InLie V) :
    OnUnitary (gExp X V) := by
  intro k
  change (X k * NormedSpace.exp (V k))ᴴ * (X k * NormedSpace.exp (V k)) = 1
  rw [conjTranspose_mul, Matrix.mul_assoc, ← Matrix.mul_assoc _ (X k), hX k, Matrix.one_mul,
    exp_lie (hV k)]

omit [Fintype κ] in
/-- C96: the exponential of a rotation is a rotation. -/
theorem C96_exp_so {X V : Stack κ n n ℝ} (hX : OnSO X) (hV : InLie V) : OnSO (gExp X V) := by
  refine ⟨C96_exp hX.1 hV, fun k => orth_det_pos (C96_exp hX.1 hV k) ?_⟩
  change 0 < (X k * NormedSpace.exp (V k)).det
  rw [det_mul, hX.2 k, one_mul]
  exact det_exp_pos _

omit [Fintype κ] in
/-- C96: `t ↦ exp(X, t V)` starts at the point with velocity `X V` (the embedded tangent vector),
its velocity at time `t` is the embedding of the same `V`, and it is a geodesic: the tangential part
of its acceleration vanishes. -/
theorem C96_exp_geodesic (X V : Stack κ n n 𝕜) (hX : OnUnitary X) (hV : InLie V) :
    gExp X (gZero X) = X ∧
      (∀ t, StackDeriv (fun s => gExp X (s • V)) (gEmbed (gExp X (t • V)) V) t) ∧
      ∀ t, ∃ a, StackDeriv (fun s => gEmbed (gExp X (s • V)) V) a t ∧
        ∀ W, GroupTangent (gExp X (t • V)) W → ∀ k, trDot (a k) (W k) = 0 := by
  have hd : ∀ t k, MatDeriv (fun s => X k * NormedSpace.exp (s • V k))
      (X k * NormedSpace.exp (t • V k) * V k) t := by
    intro t k
    refine ((MatDeriv.const (X k) t).mul (matDeriv_exp (V k) t)).congr_deriv ?_
    rw [Matrix.zero_mul, zero_add, Matrix.mul_assoc]
  refine ⟨funext fun k => ?_, fun t => hd t, fun t => ?_⟩
  · change X k * NormedSpace.exp (0 : Matrix n n 𝕜) = X k
    rw [NormedSpace.exp_zero, Matrix.mul_one]
  · refine ⟨fun k => gExp X (t • V) k * (V k * V k), ?_, ?_⟩
    · rw [stackDeriv_iff]
      intro k
      refine ((hd t k).mul (MatDeriv.const (V k) t)).congr_deriv ?_
      rw [Matrix.mul_zero, add_zero, Matrix.mul_assoc]
      rfl
    · intro W hW k
      have hE : OnUnitary (gExp X (t • V)) := C96_exp hX (inLie_subspace.smul t hV)
      obtain ⟨U, hU, rfl⟩ := (groupTangent_iff hE).mp hW
      change trDot (gExp X (t • V) k * (V k * V k)) (gExp X (t • V) k * U k) = 0
      rw [trDot_mul_left, ← Matrix.mul_assoc, hE k, Matrix.one_mul]
      refine trDot_herm_skew ?_ (hU k)
      rw [conjTranspose_mul, hV k, Matrix.neg_mul, Matrix.mul_neg, neg_neg]

section retraction
variable {p : ℕ} {X V : Stack κ (Fin p) (Fin p) 𝕜}

omit [Fintype κ] in
/-- C96: both retractions return orthogonal (unitary) matrices, whatever factorisation LAPACK
returns. -/
theorem C96_retraction (Y : Stack κ (Fin p) (Fin p) 𝕜) :
    (∀ q r, (∀ k, IsQR (Y k) (q k) (r k)) → OnUnitary (gRetractQR q r)) ∧
      ∀ u (s : κ → Fin p → ℝ) vt, (∀ k, IsSVD (Y k) (u k) (s k) (vt k)) →
        OnUnitary (gRetractPolar u vt) :=
  ⟨fun _ _ h k => (C51_factorisation le_rfl (h k)).1.orth, fun _ _ _ h k => (h k).polar_orth⟩

omit [Fintype κ] in
/-- C96: LAPACK has a factorisation to return in both cases. -/
theorem C96_total (X V : Stack κ (Fin p) (Fin p) 𝕜) :
    (∃ q r : Stack κ (Fin p) (Fin p) 𝕜, ∀ k, IsQR (gRetractArg X V k) (q k) (r k)) ∧
      ∃ (u : Stack κ (Fin p) (Fin p) 𝕜) (s : κ → Fin p → ℝ) (vt : Stack κ (Fin p) (Fin p) 𝕜),
        ∀ k, IsSVD (gRetractArg X V k) (u k) (s k) (vt k) := by
  have h1 := fun k => exists_isQR (p := p) (by simp) (gRetractArg X V k)
  have h2 := fun k => exists_isSVD (by simp) (gRetractArg X V k)
  choose q r h using h1
  choose u s vt h' using h2
  exact ⟨⟨q, r, h⟩, ⟨u, s, vt, h'⟩⟩

omit [Fintype κ] in
/-- C96: both retractions of the zero vector return the point. -/
theorem C96_zero (hX : OnUnitary X) :
    (∀ q r, (∀ k, IsQR (gRetractArg X (gZero X) k) (q k) (r k)) → gRetractQR q r = X) ∧
      ∀ u (s : κ → Fin p → ℝ) vt, (∀ k, IsSVD (gRetractArg X (gZero X) k) (u k) (s k) (vt k)) →
        gRetractPolar u vt = X := by
  have h0 : InLie (0 : Stack κ (Fin p) (Fin p) 𝕜) := inLie_subspace.zero
  have hz : ∀ k, gRetractArg X (gZero X) k = X k := fun k => by
    change X k + X k * 0 = X k
    rw [Matrix.mul_zero, add_zero]
  have hg := fun k => gRetractArg_gram hX h0 k
  constructor
  · intro q r h
    funext k
    ext i j
    have hf := C51_factorisation le_rfl (h k)
    have := qr_close hf.1 hf.2 (hg k) i j
    rw [Pi.zero_apply, trDot_inner.zero_left, mul_zero] at this
    have := sub_eq_zero.mp (norm_le_zero_iff.mp this)
    rw [hz] at this
    exact this
  · intro u s vt h
    funext k
    ext i j
    have := polar_close (h k) (hg k) i j
    rw [Pi.zero_apply, trDot_inner.zero_left, mul_zero] at this
    have := sub_eq_zero.mp (norm_le_zero_iff.mp this)
    rw [hz] at this
    exact this

omit [Fintype κ] in
/-- C96: both retractions have the embedded tangent vector as initial velocity, with any choice of
factors along the curve `t ↦ t V`. -/
theorem C96_velocity (hX : OnUnitary X) (hV : InLie V) :
    (∀ q r : ℝ → Stack κ (Fin p) (Fin p) 𝕜,
      (∀ t k, IsQR (gRetractArg X (t • V) k) (q t k) (r t k)) →
        StackDeriv (fun t => gRetractQR (q t) (r t)) (gEmbed X V) 0) ∧
    ∀ (u : ℝ → Stack κ (Fin p) (Fin p) 𝕜) (s : ℝ → κ → Fin p → ℝ)
      (vt : ℝ → Stack κ (Fin p) (Fin p) 𝕜),
      (∀ t k, IsSVD (gRetractArg X (t • V) k) (u t k) (s t k) (vt t k)) →
        StackDeriv (fun t => gRetractPolar (u t) (vt t)) (gEmbed X V) 0 := by
  have hg := fun (t : ℝ) k => gRetractArg_gram hX (inLie_subspace.smul t hV) k
  have hn : ∀ (t : ℝ) k, trDot ((t • V) k) ((t • V) k) = trDot (V k) (V k) * t ^ 2 := by
    intro t k
    rw [Pi.smul_apply, trDot_inner.smul_left, trDot_inner.smul_right]; ring
  have ha : ∀ (t : ℝ) k i j,
      gRetractArg X (t • V) k i j = X k i j + t • gEmbed X V k i j := by
    intro t k i j
    change X k i j + (X k * t • V k) i j = X k i j + t • (X k * V k) i j
    rw [Matrix.mul_smul]
    rfl
  constructor
  · intro q r h k i j
    refine hasDerivAt_of_quadratic (a := X k i j) (C := 2 * p * trDot (V k) (V k)) fun t => ?_
    have hf := C51_factorisation le_rfl (h t k)
    have := qr_close hf.1 hf.2 (hg t k) i j
    rwa [hn, ← mul_assoc, ha] at this
  · intro u s vt h k i j
    refine hasDerivAt_of_quadratic (a := X k i j) (C := p * trDot (V k) (V k)) fun t => ?_
    have := polar_close (h t k) (hg t k) i j
    rwa [hn, ← mul_assoc, ha] at this

end retraction

theorem qr_det_pos {p : ℕ} {Y q r : Matrix (Fin p) (Fin p) ℝ} (h : IsQR Y q r)
    (hd : ∀ i, ∃ d : ℝ, 0 ≤ d ∧ r i i = d) (hY : 0 < Y.det) : 0 < q.det := by
  have hr : r.det = ∏ i, r i i := det_of_isUpperTriangular fun i j hij => h.upper i j hij
  have hr0 : 0 ≤ r.det := by
    rw [hr]
    refine Finset.prod_nonneg fun i _ => ?_
    obtain ⟨d, hd0, he⟩ := hd i
    rw [he]; exact hd0
  rw [← h.prod, det_mul] at hY
  by_contra hq
  have := mul_nonpos_of_nonpos_of_nonneg (not_lt.mp hq) hr0
  linarith

omit [Fintype κ] in
/-- C96: on the special orthogonal group both retractions return rotations. -/
theorem C96_retraction_so {p : ℕ} {X V : Stack κ (Fin p) (Fin p) ℝ} (hX : OnSO X) (hV : InLie V) :
    (∀ q r, (∀ k, IsQR (gRetractArg X V k) (q k) (r k)) → OnSO (gRetractQR q r)) ∧
      ∀ u (s : κ → Fin p → ℝ) vt, (∀ k, IsSVD (gRetractArg X V k) (u k) (s k) (vt k)) →
        OnSO (gRetractPolar u vt) := by
  refine ⟨fun q r h => ⟨(C96_retraction _).1 q r h, fun k => ?_⟩,
    fun u s vt h => ⟨(C96_retraction _).2 u s vt h, fun k => ?_⟩⟩
  · have hf := C51_factorisation le_rfl (h k)
    exact orth_det_pos hf.1.orth (qr_det_pos hf.1 hf.2 (gRetractArg_det hX hV k))
  · refine orth_det_pos (h k).polar_orth ?_
    have hp := gRetractArg_det hX hV k
    rw [(h k).prod, det_mul, det_mul, det_diagonal] at hp
    change 0 < (u k * vt k).det
    rw [det_mul]
    have hs : 0 ≤ ∏ i, ((s k i : ℝ) : ℝ) := Finset.prod_nonneg fun i _ => (h k).nonneg i
    by_contra hn
    have h1 := mul_nonpos_of_nonpos_of_nonneg (not_lt.mp hn) hs
    have h2 : (u k).det * (∏ i, ((s k i : ℝ) : ℝ)) * (vt k).det =
      (u k).det * (vt k).det * ∏ i, ((s k i : ℝ) : ℝ) := by ring
    have h3 : 0 < (u k).det * (∏ i, ((s k i : ℝ) : ℝ)) * (vt k).det := hp
    linarith

/-! ### C98 -/

omit [Fintype κ] [DecidableEq n] in
theorem gE2rh_apply (X G H V : Stack κ n n 𝕜) (k : κ) :
    gE2rh X G H V k = skewPart ((X k)ᴴ * H k - V k * hermPart ((X k)ᴴ * G k)) := rfl

omit [DecidableEq n] in
/-- C98: the converted Hessian maps the Lie algebra to itself and is symmetric when the Euclidean
Hessian is. -/
theorem C98_symmetric (X G : Stack κ n n 𝕜) (H : Stack κ n n 𝕜 → Stack κ n n 𝕜)
    (hH : ∀ U W, stackDot (H U) W = stackDot U (H W)) :
    IsSymmOn (E := Stack κ n n 𝕜) (fun A B => RCLike.re (gInner X A B)) InLie
      fun V => gE2rh X G (H (gEmbed X V)) V := by
  have hmem : ∀ V, InLie (gE2rh X G (H (gEmbed X V)) V) := fun V k => skewPart_conjTranspose _
  have hdot : ∀ U V, InLie V → stackDot (gE2rh X G (H (gEmbed X U)) U) V =
      stackDot (H (gEmbed X U)) (gEmbed X V) -
        ∑ k, trDot (U k * hermPart ((X k)ᴴ * G k)) (V k) := by
    intro U V hV
    rw [stackDot_eq, stackDot_eq, ← Finset.sum_sub_distrib]
    refine Finset.sum_congr rfl fun k _ => ?_
    rw [gE2rh_apply, trDot_skewPart (hV k), trDot_inner.sub_left]
    congr 1
    change _ = trDot (H (gEmbed X U) k) (X k * V k)
    rw [trDot_mul_left, conjTranspose_conjTranspose]
  refine ⟨fun {V} _ => hmem V, fun {U V} hU hV => ?_⟩
  change stackDot U _ = stackDot _ V
  rw [stackDot_comm U, hdot V U hU, hdot U V hV, hH, stackDot_comm]
  congr 1
  refine Finset.sum_congr rfl fun k _ => ?_
  rw [trDot_mul_right, hermPart_conjTranspose, trDot_inner.symm]

omit [Fintype κ] in
/-- C98: along every differentiable curve in the group with velocity `c V`, the derivative of the
embedded Riemannian gradient field, expressed in the Lie algebra by the orthogonal projection, is
the converted Hessian; `G` is the Euclidean gradient along the curve and `H` its derivative. -/
theorem C98_derivative (c G : ℝ → Stack κ n n 𝕜) (V H : Stack κ n n 𝕜) (hon : OnUnitary (c 0))
    (hV : InLie V) (hc : StackDeriv c (gEmbed (c 0) V) 0) (hG : StackDeriv G H 0) :
    ∃ d, StackDeriv (fun t k => c t k * skewPart ((c t k)ᴴ * G t k)) d 0 ∧
      ∀ k, skewPart ((c 0 k)ᴴ * d k) = gE2rh (c 0) (G 0) H V k := by
  refine ⟨fun k => c 0 k * V k * skewPart ((c 0 k)ᴴ * G 0 k) +
    c 0 k * skewPart ((c 0 k * V k)ᴴ * G 0 k + (c 0 k)ᴴ * H k), ?_, fun k => ?_⟩
  · rw [stackDeriv_iff]
    intro k
    have h1 := MatDeriv.mul (MatDeriv.conjTranspose (hc k)) (hG k)
    exact MatDeriv.mul (hc k) ((h1.sub h1.conjTranspose).smul (1 / 2))
  · obtain ⟨M, hM⟩ : ∃ M, M = (c 0 k)ᴴ * G 0 k := ⟨_, rfl⟩
    rw [gE2rh_apply, ← hM, Matrix.mul_add, Matrix.mul_assoc (c 0 k), ← Matrix.mul_assoc _ (c 0 k),
      ← Matrix.mul_assoc _ (c 0 k), hon k, Matrix.one_mul, Matrix.one_mul, conjTranspose_mul,
      Matrix.mul_assoc _ _ (G 0 k), ← hM, hV k, skewPart_add, skewPart_add, skewPart_add,
      skewPart_sub, skewPart_of_skew (skewPart_conjTranspose (-V k * M)),
      skewPart_of_skew (skewPart_conjTranspose ((c 0 k)ᴴ * H k))]
    have hs : V k * skewPart M = V k * M - V k * hermPart M := by
      rw [← Matrix.mul_sub, ← skewPart_add_hermPart M]
      congr 1
      rw [skewPart_add_hermPart M, eq_sub_iff_add_eq, skewPart_add_hermPart]
    rw [hs, skewPart_sub, Matrix.neg_mul]
    have hn : skewPart (-(V k * M)) = -skewPart (V k * M) := by
      simp only [skewPart, conjTranspose_neg]; module
    rw [hn]
    abel

omit [Fintype κ] in
/-- C98 for the special orthogonal group, in terms of the converted gradient and the projection of
the manifold. -/
theorem C98_derivative_so (c G : ℝ → Stack κ n n ℝ) (V H : Stack κ n n ℝ) (hon : OnUnitary (c 0))
    (hV : InLie V) (hc : StackDeriv c (gEmbed (c 0) V) 0) (hG : StackDeriv G H 0) :
    ∃ d, StackDeriv (fun t => gEmbed (c t) (gE2rg (c t) (G t))) d 0 ∧
      gProj (c 0) d = gE2rh (c 0) (G 0) H V := by
  obtain ⟨d, hd, he⟩ := C98_derivative c G V H hon hV hc hG
  refine ⟨d, ?_, funext fun k => ?_⟩
  · have e : (fun t => gEmbed (c t) (gE2rg (c t) (G t))) =
        fun t k => c t k * skewPart ((c t k)ᴴ * G t k) := by
      funext t k
      change c t k * gProj (c t) (G t) k = _
      rw [gProj_real]
    rw [e]
    exact hd
  · rw [gProj_real]
    exact he k

/-- C98: the converted Hessian is the second derivative of the cost along geodesics: if `G` is the
Euclidean gradient of the cost `f` along the geodesic and `H` its derivative, then the pairing of
`V` with the converted Hessian is the second derivative of `f`. -/
theorem C98_second_derivative (X V : Stack κ n n 𝕜) (hV : InLie V)
    (f : ℝ → ℝ) (G : ℝ → Stack κ n n 𝕜) (H : Stack κ n n 𝕜)
    (hf : ∀ t, HasDerivAt f (stackDot (G t) (gEmbed (gExp X (t • V)) V)) t)
    (hG : StackDeriv G H 0) :
    HasDerivAt (deriv f) (stackDot V (gE2rh X (G 0) H V)) 0 := by
  have hd : deriv f = fun t => stackDot (G t) (gEmbed (gExp X (t • V)) V) :=
    funext fun t => (hf t).deriv
  have hc : StackDeriv (fun t : ℝ => gEmbed (gExp X (t • V)) V) (fun k => X k * (V k * V k)) 0 := by
    rw [stackDeriv_iff]
    intro k
    refine (((MatDeriv.const (X k) 0).mul (matDeriv_exp (V k) 0)).mul
      (MatDeriv.const (V k) 0)).congr_deriv ?_
    rw [zero_smul, NormedSpace.exp_zero, Matrix.one_mul, Matrix.zero_mul, zero_add,
      Matrix.mul_zero, add_zero, Matrix.mul_assoc]
  rw [hd]
  refine (hasDerivAt_stackDot hG hc).congr_deriv ?_
  rw [stackDot_comm V, stackDot_eq, stackDot_eq, stackDot_eq, ← Finset.sum_add_distrib]
  refine Finset.sum_congr rfl fun k => fun _ => ?_
  have h0 : gEmbed (gExp X ((0 : ℝ) • V)) V k = X k * V k := by
    change X k * NormedSpace.exp ((0 : ℝ) • V k) * V k = _
    rw [zero_smul, NormedSpace.exp_zero, Matrix.mul_one]
  have hVV : (V k * V k)ᴴ = V k * V k := by
    rw [conjTranspose_mul, hV k, Matrix.neg_mul, Matrix.mul_neg, neg_neg]
  have e1 : trDot (G 0 k) (X k * (V k * V k)) = trDot (hermPart ((X k)ᴴ * G 0 k)) (V k * V k) := by
    have : trDot (G 0 k) (X k * (V k * V k)) = trDot ((X k)ᴴ * G 0 k) (V k * V k) := by
      rw [trDot_mul_left, conjTranspose_conjTranspose]
    rw [this]
    conv_lhs => rw [← skewPart_add_hermPart ((X k)ᴴ * G 0 k), trDot_inner.add_left,
      trDot_inner.symm (skewPart _), trDot_herm_skew hVV (skewPart_conjTranspose _), zero_add]
  have e2 : trDot (V k * hermPart ((X k)ᴴ * G 0 k)) (V k) =
      -trDot (hermPart ((X k)ᴴ * G 0 k)) (V k * V k) := by
    rw [trDot_mul_left, hV k, Matrix.neg_mul, trDot_inner.neg_right]
  rw [h0, e1, gE2rh_apply, trDot_skewPart (hV k), trDot_inner.sub_left, e2, trDot_mul_left,
    conjTranspose_conjTranspose]
  ring

/-! ### C99 -/

omit [Fintype κ] in
/-- C99: random rotations are orthogonal with determinant one, for every draw `Y`, every
factorisation LAPACK may return, every size and every stack length. -/
theorem C99_special_orthogonal {n : ℕ} {Y q r : Stack κ (Fin n) (Fin n) ℝ}
    (h : ∀ k, IsQR (Y k) (q k) (r k)) : OnSO (soRandomPoint q r) := by
  have horth := fun k => (C51_factorisation le_rfl (h k)).1.orth
  unfold soRandomPoint
  split_ifs with h1 h2
  · subst h1
    refine ⟨fun k => ?_, fun k => ?_⟩
    · ext i j
      rw [Subsingleton.elim i j]
      simp [mul_apply]
    · simp
  · have key : ∀ k, ((if (multiqr le_rfl (q k) (r k)).1.det < 0 then
        (multiqr le_rfl (q k) (r k)).1.submatrix id (Equiv.swap ⟨0, by omega⟩ ⟨1, h2⟩)
        else (multiqr le_rfl (q k) (r k)).1)ᴴ * (if (multiqr le_rfl (q k) (r k)).1.det < 0 then
        (multiqr le_rfl (q k) (r k)).1.submatrix id (Equiv.swap ⟨0, by omega⟩ ⟨1, h2⟩)
        else (multiqr le_rfl (q k) (r k)).1) = 1) ∧ (if (multiqr le_rfl (q k) (r k)).1.det < 0 then
        (multiqr le_rfl (q k) (r k)).1.submatrix id (Equiv.swap ⟨0, by omega⟩ ⟨1, h2⟩)
        else (multiqr le_rfl (q k) (r k)).1).det = 1 := by
      intro k
      have ho := horth k
      obtain ⟨p, hp⟩ : ∃ p, p = (multiqr le_rfl (q k) (r k)).1 := ⟨_, rfl⟩
      rw [← hp] at ho ⊢
      split_ifs with hdet
      · constructor
        · rw [conjTranspose_submatrix, ← submatrix_mul _ _ _ _ _ Function.bijective_id, ho,
            submatrix_one_equiv]
        · rw [det_permute']
          rw [Equiv.Perm.sign_swap (by simp [Fin.ext_iff])]
          rcases orth_det ho with e | e
          · rw [e] at hdet; norm_num at hdet
          · rw [e]; simp
      · refine ⟨ho, (orth_det ho).resolve_right fun e => ?_⟩
        rw [e] at hdet; norm_num at hdet
    exact ⟨fun k => (key k).1, fun k => (key k).2⟩
  · have h0 : n = 0 := by omega
    subst h0
    exact ⟨fun k => Subsingleton.elim _ _, fun k => det_isEmpty⟩

omit [Fintype κ] in
/-- C99: random points of the unitary group are unitary. -/
theorem C99_unitary {n : ℕ} {Y q r : Stack κ (Fin n) (Fin n) ℂ}
    (h : ∀ k, IsQR (Y k) (q k) (r k)) : OnUnitary (unRandomPoint q r) := by
  have horth := fun k => (C51_factorisation le_rfl (h k)).1.orth
  unfold unRandomPoint
  split_ifs with h1
  · subst h1
    intro k
    ext i j
    rw [Subsingleton.elim i j]
    obtain ⟨z, hz⟩ : ∃ z : ℂ, z = 1 + Complex.I := ⟨_, rfl⟩
    have hz0 : z ≠ 0 := by
      intro h0
      have := congrArg Complex.im (hz.symm.trans h0)
      norm_num at this
    have hn : (‖z‖ : ℂ) ≠ 0 := by exact_mod_cast norm_ne_zero_iff.mpr hz0
    rw [mul_apply, Fin.sum_univ_one, conjTranspose_apply, one_apply_eq]
    change star ((1 + Complex.I) / (‖1 + Complex.I‖ : ℂ)) * ((1 + Complex.I) / (‖1 + Complex.I‖ : ℂ)) = 1
    rw [← hz, star_div₀]
    have h2 : star (‖z‖ : ℂ) = (‖z‖ : ℂ) := Complex.conj_ofReal _
    rw [h2, div_mul_div_comm, div_eq_one_iff_eq (mul_ne_zero hn hn)]
    have := Complex.normSq_eq_conj_mul_self (z := z)
    change (starRingEnd ℂ) z * z = _
    rw [← this, Complex.normSq_eq_norm_sq]
    push_cast
    ring
  · exact horth

/-! ### C101 -/

omit [Fintype κ] in
theorem randSkew_lie {n : ℕ} (d : Stack κ (Fin n) (Fin n) ℝ) : InLie (randSkew d) := by
  unfold randSkew
  split_ifs
  · exact inLie_subspace.zero
  · intro k
    ext i j
    change (randUpper d k j i - randUpper d k i j) = -(randUpper d k i j - randUpper d k j i)
    ring

omit [Fintype κ] in
theorem randSym_symm {n : ℕ} (d : Stack κ (Fin n) (Fin n) ℝ) (k : κ) (i j : Fin n) :
    randSym d k i j = randSym d k j i := by
  unfold randSym
  split_ifs with h1
  · subst h1
    rw [Subsingleton.elim i j]
  · change (if i = j then d k i i else randUpper d k i j + randUpper d k j i) =
      if j = i then d k j j else randUpper d k j i + randUpper d k i j
    by_cases hij : i = j
    · subst hij; rfl
    · rw [if_neg hij, if_neg (Ne.symm hij), add_comm]

omit [Fintype κ] in
theorem unDraw_lie {n : ℕ} (d e : Stack κ (Fin n) (Fin n) ℝ) : InLie (unDraw d e) := by
  intro k
  ext i j
  have h1 : randSkew d k j i = -randSkew d k i j := by
    have := congrFun (congrFun (randSkew_lie d k) i) j
    exact this
  change star (((randSkew d k j i : ℂ) + Complex.I * (randSym e k j i : ℂ)) / (Real.sqrt 2 : ℂ)) =
    -(((randSkew d k i j : ℂ) + Complex.I * (randSym e k i j : ℂ)) / (Real.sqrt 2 : ℂ))
  rw [star_div₀, star_add, star_mul', randSym_symm e k j i, h1]
  have hr : ∀ x : ℝ, star (x : ℂ) = x := fun x => Complex.conj_ofReal x
  have hI : star Complex.I = -Complex.I := Complex.conj_I
  rw [hr, hr, hr, hI]
  push_cast
  ring

/-- C101 for the special orthogonal group: random tangent vectors are Lie algebra elements of norm
one, unless all draws are zero. -/
theorem C101_special_orthogonal {n : ℕ} (X d : Stack κ (Fin n) (Fin n) ℝ) (h : randSkew d ≠ 0) :
    InLie (soRandomTangent X d) ∧ gNorm X (soRandomTangent X d) = 1 :=
  ⟨inLie_subspace.smul _ (randSkew_lie d), stackNorm_inv_smul h⟩

omit [Fintype κ] in
/-- The hypothesis of `C101_special_orthogonal` in terms of the draws: one of them above the
diagonal is not zero. -/
theorem C101_special_orthogonal_draw {n : ℕ} (d : Stack κ (Fin n) (Fin n) ℝ) :
    randSkew d ≠ 0 ↔ ∃ k i j, i < j ∧ d k i j ≠ 0 := by
  constructor
  · intro h
    by_contra hn
    push Not at hn
    apply h
    unfold randSkew
    split_ifs with h1
    · rfl
    · have : randUpper d = 0 := by
        funext k
        ext i j
        change (if i < j then d k i j else 0) = 0
        split_ifs with hij
        · exact hn k i j hij
        · rfl
      rw [this]
      funext k
      ext i j
      change (0 : ℝ) - 0 = 0
      rw [sub_zero]
  · rintro ⟨k, i, j, hij, hne⟩ h
    unfold randSkew at h
    split_ifs at h with h1
    · subst h1
      exact absurd hij (by rw [Subsingleton.elim i j]; exact lt_irrefl _)
    · have := congrFun (congrFun (congrFun h k) i) j
      change (if i < j then d k i j else 0) - (if j < i then d k j i else 0) = 0 at this
      rw [if_pos hij, if_neg (not_lt.mpr hij.le), sub_zero] at this
      exact hne this

omit [Fintype κ] in
/-- C101 fails for rotations of the line: on `SpecialOrthogonalGroup(1)`, a manifold of dimension
zero, every draw is the zero vector and the code divides zero by zero. -/
theorem C101_special_orthogonal_one (d : Stack κ (Fin 1) (Fin 1) ℝ) : randSkew d = 0 := rfl

/-- C101 for the unitary group. -/
theorem C101_unitary {n : ℕ} (X : Stack κ (Fin n) (Fin n) ℂ) (d e : Stack κ (Fin n) (Fin n) ℝ)
    (h : unDraw d e ≠ 0) :
    InLie (unRandomTangent X d e) ∧ gNorm X (unRandomTangent X d e) = 1 :=
  ⟨inLie_subspace.smul _ (unDraw_lie d e), stackNorm_inv_smul h⟩

/-! ### Examples -/

/-- A rotation of the plane that is not the identity, and a non-zero skew-symmetric matrix. -/
example : OnSO (κ := Unit) (fun _ => !![(3 / 5 : ℝ), -4 / 5; 4 / 5, 3 / 5]) ∧
    InLie (κ := Unit) (fun _ => !![(0 : ℝ), -2; 2, 0]) := by
  refine ⟨⟨fun k => ?_, fun k => ?_⟩, fun k => ?_⟩
  · ext i j; fin_cases i <;> fin_cases j <;> simp [mul_apply, Fin.sum_univ_two] <;> norm_num
  · rw [det_fin_two]; simp; norm_num
  · ext i j; fin_cases i <;> fin_cases j <;> simp

/-- A unitary matrix that is not real, and a skew-Hermitian matrix that is not real. -/
example : OnUnitary (κ := Unit) (fun _ => !![(0 : ℂ), Complex.I; 1, 0]) ∧
    InLie (κ := Unit) (fun _ => !![Complex.I, (2 : ℂ); -2, 0]) := by
  refine ⟨fun k => ?_, fun k => ?_⟩
  · ext i j; fin_cases i <;> fin_cases j <;> simp [mul_apply, Fin.sum_univ_two]
  · ext i j; fin_cases i <;> fin_cases j <;> simp

/-- A draw whose orthogonal factor has determinant `-1`: the branch of `random_point` that swaps
columns is taken. -/
example : IsQR (m := Fin 2) !![(0 : ℝ), 1; 1, 0] !![(0 : ℝ), 1; 1, 0] 1 ∧
    (!![(0 : ℝ), 1; 1, 0]).det = -1 := by
  refine ⟨⟨?_, ?_, ?_⟩, ?_⟩
  · ext i j; fin_cases i <;> fin_cases j <;> simp [mul_apply, Fin.sum_univ_two]
  · rw [Matrix.mul_one]
  · intro i j h; rw [one_apply_ne (by rintro rfl; exact lt_irrefl _ h)]
  · rw [det_fin_two]; simp

/-- Draws for the unitary group with a non-zero vector, also in dimension one. -/
example : unDraw (κ := Unit) (n := 1) (fun _ => 0) (fun _ => 1) ≠ 0 := by
  intro h
  have := congrFun (congrFun (congrFun h ()) 0) 0
  simp [unDraw, randSkew, randSym] at this

end Verif.Geo
