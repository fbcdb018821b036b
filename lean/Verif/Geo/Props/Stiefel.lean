/-
C66, C67, C68, C69: the Stiefel manifold.
-/
import Verif.Geo.Model.Stiefel
import Verif.Geo.Lemmas.Factor
import Verif.Geo.Props.Multi

namespace Verif.Geo
open scoped BigOperators
open Matrix

variable {κ n p : Type*} [Fintype κ] [Fintype n] [Fintype p] [DecidableEq p]

/-- Stacks of matrices with orthonormal columns. -/
def OnStiefel (X : Stack κ n p ℝ) : Prop :=
  ∀ k i j, ∑ l, X k l i * X k l j = if i = j then 1 else 0

/-- Tangent vectors at `X`: `Xᵀ Z` is skew-symmetric. -/
def StiefelTangent (X Z : Stack κ n p ℝ) : Prop :=
  ∀ k i j, ∑ l, X k l i * Z k l j + ∑ l, X k l j * Z k l i = 0

omit [Fintype κ] [Fintype p] in
theorem onStiefel_iff {X : Stack κ n p ℝ} : OnStiefel X ↔ ∀ k, (X k)ᵀ * X k = 1 := by
  constructor
  · intro h k
    ext i j
    rw [mul_apply, one_apply]
    exact h k i j
  · intro h k i j
    have := congrFun (congrFun (h k) i) j
    rwa [mul_apply, one_apply] at this

omit [Fintype κ] [Fintype p] [DecidableEq p] in
theorem stiefelTangent_iff {X Z : Stack κ n p ℝ} :
    StiefelTangent X Z ↔ ∀ k, (Z k)ᵀ * X k = -((X k)ᵀ * Z k) := by
  constructor
  · intro h k
    ext i j
    have := h k i j
    rw [neg_apply, mul_apply, mul_apply]
    simp only [transpose_apply]
    have e : ∑ l, Z k l i * X k l j = ∑ l, X k l j * Z k l i :=
      Finset.sum_congr rfl fun l _ => mul_comm _ _
    linarith
  · intro h k i j
    have := congrFun (congrFun (h k) i) j
    rw [neg_apply, mul_apply, mul_apply] at this
    simp only [transpose_apply] at this
    have e : ∑ l, Z k l i * X k l j = ∑ l, X k l j * Z k l i :=
      Finset.sum_congr rfl fun l _ => mul_comm _ _
    linarith

omit [Fintype κ] [Fintype p] [DecidableEq p] in
theorem stiefelTangent_subspace (X : Stack κ n p ℝ) :
    IsSubspace (E := Stack κ n p ℝ) (StiefelTangent X) where
  zero k i j := by simp
  add {u v} hu hv k i j := by
    have h1 := hu k i j
    have h2 := hv k i j
    simp only [Pi.add_apply, Matrix.add_apply, mul_add, Finset.sum_add_distrib]
    linarith
  smul c u hu k i j := by
    have h1 := hu k i j
    simp only [Pi.smul_apply, Matrix.smul_apply, smul_eq_mul, mul_left_comm _ c,
      ← Finset.mul_sum]
    rw [← mul_add, h1, mul_zero]

/-- Symmetric part of a matrix. -/
noncomputable def symPart (A : Matrix p p ℝ) : Matrix p p ℝ := (1 / 2 : ℝ) • (A + Aᵀ)

omit [Fintype p] [DecidableEq p] in
theorem symPart_transpose (A : Matrix p p ℝ) : (symPart A)ᵀ = symPart A := by
  rw [symPart, transpose_smul, transpose_add, transpose_transpose, add_comm]

omit [Fintype p] [DecidableEq p] in
theorem symPart_of_symm {A : Matrix p p ℝ} (h : Aᵀ = A) : symPart A = A := by
  rw [symPart, h]; module

omit [Fintype p] [DecidableEq p] in
theorem symPart_of_skew {A : Matrix p p ℝ} (h : Aᵀ = -A) : symPart A = 0 := by
  rw [symPart, h, add_neg_cancel, smul_zero]

omit [Fintype κ] [DecidableEq p] in
theorem stProj_apply (X V : Stack κ n p ℝ) (k : κ) :
    stProj X V k = V k - X k * symPart ((X k)ᵀ * V k) := rfl

omit [Fintype κ] [DecidableEq p] in
theorem stWeingarten_apply (X Z N : Stack κ n p ℝ) (k : κ) :
    stWeingarten X Z N k = -(Z k * ((X k)ᵀ * N k)) - X k * symPart ((Z k)ᵀ * N k) := by
  have : stWeingarten X Z N k = -Z k * (X k)ᵀ * N k - X k * symPart ((Z k)ᵀ * N k) := rfl
  rw [this, Matrix.mul_assoc, Matrix.neg_mul]

omit [DecidableEq p] in
theorem stInner_eq (X A B : Stack κ n p ℝ) : stInner X A B = stackDot A B :=
  (retensordot_real _ _).symm

omit [DecidableEq p] in
theorem stInner_fun (X : Stack κ n p ℝ) : stInner X = stackDot := by
  funext A B; exact stInner_eq X A B

/-! ### C66 -/

omit [Fintype κ] in
theorem stProj_mem {X : Stack κ n p ℝ} (hX : OnStiefel X) (V : Stack κ n p ℝ) :
    StiefelTangent X (stProj X V) := by
  rw [stiefelTangent_iff]
  intro k
  have h := onStiefel_iff.mp hX k
  rw [stProj_apply, transpose_sub, transpose_mul, symPart_transpose, Matrix.sub_mul,
    Matrix.mul_sub, Matrix.mul_assoc, h, Matrix.mul_one, ← Matrix.mul_assoc, h, Matrix.one_mul]
  have : (X k)ᵀ * V k - symPart ((X k)ᵀ * V k) + ((V k)ᵀ * X k - symPart ((X k)ᵀ * V k)) = 0 := by
    rw [symPart, transpose_mul, transpose_transpose]
    module
  rw [add_comm] at this
  exact eq_neg_of_add_eq_zero_left this

omit [DecidableEq p] in
theorem stProj_normal {X Z : Stack κ n p ℝ} (hZ : StiefelTangent X Z) (S : Stack κ p p ℝ)
    (hS : ∀ k, (S k)ᵀ = S k) : stackDot (fun k => X k * S k) Z = 0 := by
  rw [stackDot_eq]
  refine Finset.sum_eq_zero fun k _ => ?_
  rw [trDot_mul_left, conjTranspose_eq_transpose_of_trivial]
  refine trDot_symm_skew (hS k) ?_
  rw [transpose_mul, transpose_transpose]
  exact stiefelTangent_iff.mp hZ k

/-- C66: the projection is the orthogonal projection onto the tangent space, for the inner product
of the manifold. -/
theorem C66_projection (X : Stack κ n p ℝ) (hX : OnStiefel X) :
    IsOrthProj (E := Stack κ n p ℝ) (stInner X) (StiefelTangent X) (stProj X) := by
  rw [stInner_fun]
  refine (stackDot_inner (κ := κ) (m := n) (n := p) (𝕜 := ℝ)).orthProj (stiefelTangent_subspace X)
    (stProj_mem hX) ?_
  intro V W hW
  have : V - stProj X V = fun k => X k * symPart ((X k)ᵀ * V k) := by
    funext k
    rw [Pi.sub_apply, stProj_apply, sub_sub_cancel]
  rw [this]
  exact stProj_normal hW _ fun k => symPart_transpose _

omit [DecidableEq p] in
/-- C66: `inner_product` is an inner product and `norm` its square root. -/
theorem C66_metric (X V : Stack κ n p ℝ) :
    IsInner (E := Stack κ n p ℝ) (stInner X) ∧ stNorm X V = Real.sqrt (stInner X V V) := by
  rw [stInner_fun]
  exact ⟨stackDot_inner, stackNorm_eq_sqrt V⟩

/-- C66: transported vectors are tangent at the target point, and tangent vectors there are
returned unchanged; the converted gradient represents the directional derivative. -/
theorem C66_transport_gradient (A B G : Stack κ n p ℝ) (hB : OnStiefel B) :
    (∀ V, StiefelTangent B (stTransport A B V)) ∧
      (∀ V, StiefelTangent B V → stTransport A B V = V) ∧
      StiefelTangent B (stE2rg B G) ∧
      ∀ V, StiefelTangent B V →
        stInner B (stE2rg B G) V = ∑ k, ∑ i, ∑ j, G k i j * V k i j := by
  have hP := C66_projection B hB
  refine ⟨fun V => hP.mem V, fun V hV => hP.fixes hV, hP.mem G, fun V hV => ?_⟩
  refine (hP.represents G hV).trans ?_
  rw [stInner, stackTensordot, tensordot, Fintype.sum_prod_type]
  exact Finset.sum_congr rfl fun k _ => Fintype.sum_prod_type _

omit [Fintype κ] in
/-- C55 for the Stiefel manifold. -/
theorem C55_stiefel (X V : Stack κ n p ℝ) (hX : OnStiefel X) : StiefelTangent X (stProj X V) :=
  stProj_mem hX V

/-- C101 for the Stiefel manifold: random tangent vectors are tangent and have norm one, unless
the draw is normal to the manifold. -/
theorem C101_stiefel (X draw : Stack κ n p ℝ) (hX : OnStiefel X) (h : stProj X draw ≠ 0) :
    StiefelTangent X (stRandomTangent X draw) ∧ stNorm X (stRandomTangent X draw) = 1 :=
  ⟨(stiefelTangent_subspace X).smul _ (stProj_mem hX draw), stackNorm_inv_smul h⟩

/-! ### C67 -/

omit [Fintype κ] [Fintype p] in
theorem stRetractArg_gram {X Z : Stack κ n p ℝ} (hX : OnStiefel X) (hZ : StiefelTangent X Z)
    (k : κ) : (stRetractArg X Z k)ᴴ * stRetractArg X Z k = 1 + (Z k)ᴴ * Z k := by
  simp only [conjTranspose_eq_transpose_of_trivial, stRetractArg, Pi.add_apply, transpose_add]
  rw [Matrix.add_mul, Matrix.mul_add, Matrix.mul_add, onStiefel_iff.mp hX k,
    stiefelTangent_iff.mp hZ k]
  abel

section retraction
variable {p : ℕ} {X Z : Stack κ n (Fin p) ℝ}

omit [Fintype κ] in
/-- C67: the QR retraction returns orthonormal columns, whatever factorisation LAPACK returns, and
so does the QR factorisation behind `random_point`. -/
theorem C67_qr_orthonormal {Y q : Stack κ n (Fin p) ℝ} {r : Stack κ (Fin p) (Fin p) ℝ}
    (h : ∀ k, IsQR (Y k) (q k) (r k)) :
    OnStiefel (stRetractQR q r) ∧ OnStiefel (stRandomPoint q r) := by
  have : OnStiefel (stRetractQR q r) := by
    rw [onStiefel_iff]
    intro k
    have := (C51_factorisation le_rfl (h k)).1.orth
    rwa [conjTranspose_eq_transpose_of_trivial] at this
  exact ⟨this, this⟩

omit [Fintype κ] in
/-- C67: the columns of the QR retraction are the only orthonormal ones that reproduce
`X + Z` with an upper triangular factor of positive diagonal. -/
theorem C67_qr_factor (hX : OnStiefel X) (hZ : StiefelTangent X Z)
    {q : Stack κ n (Fin p) ℝ} {r : Stack κ (Fin p) (Fin p) ℝ}
    (h : ∀ k, IsQR (stRetractArg X Z k) (q k) (r k)) (k : κ) :
    (∃ R : Matrix (Fin p) (Fin p) ℝ, IsQR (X k + Z k) (stRetractQR q r k) R ∧ ∀ i, 0 < R i i) ∧
      ∀ (Q R : Matrix _ _ ℝ), IsQR (X k + Z k) Q R → (∀ i, 0 ≤ R i i) →
        Q = stRetractQR q r k := by
  have hf := C51_factorisation le_rfl (h k)
  have hcol : ∀ y, (X k + Z k) *ᵥ y = 0 → y = 0 := fun y => gram_injective (stRetractArg_gram hX hZ k)
  refine ⟨⟨_, hf.1, fun i => ?_⟩, fun Q R hQR hR => ?_⟩
  · obtain ⟨d, hd, he⟩ := hf.2 i
    have he' : (multiqr le_rfl (q k) (r k)).2 i i = d := he
    have := hf.1.diag_ne_zero hcol i
    rw [he'] at this ⊢
    exact lt_of_le_of_ne hd this.symm
  · exact (C51_unique hcol hQR hf.1 (fun i => ⟨_, hR i, rfl⟩) hf.2).1

omit [Fintype κ] in
/-- C67: the polar retraction returns orthonormal columns, whatever factorisation LAPACK
returns. -/
theorem C67_polar_orthonormal {Y u : Stack κ n (Fin p) ℝ} {s : κ → Fin p → ℝ}
    {vt : Stack κ (Fin p) (Fin p) ℝ} (h : ∀ k, IsSVD (Y k) (u k) (s k) (vt k)) :
    OnStiefel (stRetractPolar u vt) := by
  rw [onStiefel_iff]
  intro k
  have := (h k).polar_orth
  rwa [conjTranspose_eq_transpose_of_trivial] at this

omit [Fintype κ] in
/-- C67: both retractions of the zero vector return the point. -/
theorem C67_zero (hX : OnStiefel X) :
    (∀ q r, (∀ k, IsQR (stRetractArg X (stZero X) k) (q k) (r k)) → stRetractQR q r = X) ∧
      ∀ u (s : κ → Fin p → ℝ) vt, (∀ k, IsSVD (stRetractArg X (stZero X) k) (u k) (s k) (vt k)) →
        stRetractPolar u vt = X := by
  have h0 : StiefelTangent X 0 := (stiefelTangent_subspace X).zero
  have hz : ∀ k, stRetractArg X (stZero X) k = X k := fun k => add_zero _
  have hg := fun k => stRetractArg_gram hX h0 k
  constructor
  · intro q r h
    funext k
    ext i j
    have hf := C51_factorisation le_rfl (h k)
    have := qr_close hf.1 hf.2 (hg k) i j
    rw [Pi.zero_apply, trDot_inner.zero_left, mul_zero] at this
    have := sub_eq_zero.mp (norm_le_zero_iff.mp this)
    rw [hz] at this
    exact this
  · intro u s vt h
    funext k
    ext i j
    have := polar_close (h k) (hg k) i j
    rw [Pi.zero_apply, trDot_inner.zero_left, mul_zero] at this
    have := sub_eq_zero.mp (norm_le_zero_iff.mp this)
    rw [hz] at this
    exact this

omit [Fintype κ] in
/-- C67: both retractions have the tangent vector as initial velocity, with any choice of factors
along the curve `t ↦ t Z`. -/
theorem C67_velocity (hX : OnStiefel X) (hZ : StiefelTangent X Z) :
    (∀ (q : ℝ → Stack κ n (Fin p) ℝ) (r : ℝ → Stack κ (Fin p) (Fin p) ℝ),
      (∀ t k, IsQR (stRetractArg X (t • Z) k) (q t k) (r t k)) →
        StackDeriv (fun t => stRetractQR (q t) (r t)) Z 0) ∧
    ∀ (u : ℝ → Stack κ n (Fin p) ℝ) (s : ℝ → κ → Fin p → ℝ) (vt : ℝ → Stack κ (Fin p) (Fin p) ℝ),
      (∀ t k, IsSVD (stRetractArg X (t • Z) k) (u t k) (s t k) (vt t k)) →
        StackDeriv (fun t => stRetractPolar (u t) (vt t)) Z 0 := by
  have hg := fun (t : ℝ) k => stRetractArg_gram hX ((stiefelTangent_subspace X).smul t hZ) k
  have hn : ∀ (t : ℝ) k, trDot ((t • Z) k) ((t • Z) k) = trDot (Z k) (Z k) * t ^ 2 := by
    intro t k
    rw [Pi.smul_apply, trDot_inner.smul_left, trDot_inner.smul_right]; ring
  constructor
  · intro q r h k i j
    refine hasDerivAt_of_quadratic (a := X k i j) (C := 2 * p * trDot (Z k) (Z k)) fun t => ?_
    have hf := C51_factorisation le_rfl (h t k)
    have := qr_close hf.1 hf.2 (hg t k) i j
    rwa [hn, ← mul_assoc] at this
  · intro u s vt h k i j
    refine hasDerivAt_of_quadratic (a := X k i j) (C := p * trDot (Z k) (Z k)) fun t => ?_
    have := polar_close (h t k) (hg t k) i j
    rwa [hn, ← mul_assoc] at this

end retraction

/-! ### C68 -/

omit [Fintype κ] in
theorem stExp_apply (X Z : Stack κ n p ℝ) (k : κ) :
    stExp X Z k = fromCols (X k) (Z k) *
      ((NormedSpace.exp (fromBlocks ((X k)ᵀ * Z k) (-((Z k)ᵀ * Z k)) 1 ((X k)ᵀ * Z k))).toCols₁ *
        NormedSpace.exp (-((X k)ᵀ * Z k))) := by
  have : -((Z k)ᵀ * Z k) = -(Z k)ᵀ * Z k := (Matrix.neg_mul _ _).symm
  rw [this]
  rfl

/-- The first half of the columns. -/
def colSel (p : Type*) [DecidableEq p] : Matrix (p ⊕ p) p ℝ := fromRows 1 0

theorem toCols₁_eq {m : Type*} (M : Matrix m (p ⊕ p) ℝ) : M.toCols₁ = M * colSel p := by
  ext i j
  simp [colSel, mul_apply, one_apply]

omit [Fintype p] [DecidableEq p] in
theorem exp_skew_orth [Fintype p] [DecidableEq p] {A : Matrix p p ℝ} (hA : Aᵀ = -A) :
    (NormedSpace.exp A)ᵀ * NormedSpace.exp A = 1 := by
  rw [← exp_transpose, hA, ← exp_add_of_commute _ _ (Commute.neg_left (Commute.refl A)),
    neg_add_cancel, NormedSpace.exp_zero]

omit [Fintype κ] in
/-- C68: the exponential has orthonormal columns. -/
theorem C68_orthonormal (X Z : Stack κ n p ℝ) (hX : OnStiefel X) (hZ : StiefelTangent X Z) :
    OnStiefel (stExp X Z) := by
  rw [onStiefel_iff]
  intro k
  have hXk := onStiefel_iff.mp hX k
  have hZk := stiefelTangent_iff.mp hZ k
  rw [stExp_apply]
  set A := (X k)ᵀ * Z k with hA
  set S := (Z k)ᵀ * Z k with hS
  have hAt : Aᵀ = -A := by rw [hA, transpose_mul, transpose_transpose, hZk]
  have hSt : Sᵀ = S := by rw [hS, transpose_mul, transpose_transpose]
  set B := fromBlocks A (-S) 1 A with hB
  set a := fromCols (X k) (Z k) with ha
  have hG : aᵀ * a = fromBlocks 1 A (-A) S := by
    rw [ha, transpose_fromCols, fromRows_mul_fromCols, hXk, hZk]
  have hBG : Bᵀ * (aᵀ * a) = (aᵀ * a) * (-B) := by
    rw [hG, hB, fromBlocks_transpose, fromBlocks_neg, fromBlocks_multiply, fromBlocks_multiply,
      hAt, transpose_neg, hSt, transpose_one]
    congr 1 <;> simp only [Matrix.mul_one, Matrix.one_mul, Matrix.neg_mul, Matrix.mul_neg, neg_neg]
      <;> abel
  have hexp : (NormedSpace.exp B)ᵀ * (aᵀ * a) * NormedSpace.exp B = aᵀ * a := by
    rw [← exp_transpose, exp_intertwine hBG, Matrix.mul_assoc,
      ← exp_add_of_commute _ _ (Commute.neg_left (Commute.refl B)), neg_add_cancel,
      NormedSpace.exp_zero, Matrix.mul_one]
  have hcc : (NormedSpace.exp (-A))ᵀ * NormedSpace.exp (-A) = 1 :=
    exp_skew_orth (by rw [transpose_neg, hAt])
  have hsel : (colSel p)ᵀ * (aᵀ * a) * colSel p = 1 := by
    rw [hG, colSel, transpose_fromRows, fromCols_mul_fromBlocks, fromCols_mul_fromRows]
    simp
  rw [toCols₁_eq]
  simp only [transpose_mul]
  calc (NormedSpace.exp (-A))ᵀ * ((colSel p)ᵀ * (NormedSpace.exp B)ᵀ) * aᵀ *
        (a * (NormedSpace.exp B * colSel p * NormedSpace.exp (-A)))
      = (NormedSpace.exp (-A))ᵀ * ((colSel p)ᵀ * ((NormedSpace.exp B)ᵀ * (aᵀ * a) *
          NormedSpace.exp B) * colSel p) * NormedSpace.exp (-A) := by
        simp only [Matrix.mul_assoc]
    _ = 1 := by rw [hexp, hsel, Matrix.mul_one, hcc]

omit [Fintype κ] in
/-- Along a line of tangent vectors the exponential is a product of one-parameter groups. -/
theorem stExp_smul (X Z : Stack κ n p ℝ) (t : ℝ) (k : κ) :
    stExp X (t • Z) k = fromCols (X k) (Z k) *
      ((NormedSpace.exp (t • fromBlocks ((X k)ᵀ * Z k) (-((Z k)ᵀ * Z k)) 1 ((X k)ᵀ * Z k))) *
        colSel p * NormedSpace.exp (t • -((X k)ᵀ * Z k))) := by
  rw [stExp_apply, toCols₁_eq]
  simp only [Pi.smul_apply, Matrix.mul_smul, transpose_smul, Matrix.smul_mul]
  set A := (X k)ᵀ * Z k
  set S := (Z k)ᵀ * Z k
  set D : Matrix (p ⊕ p) (p ⊕ p) ℝ := fromBlocks 1 0 0 (t • 1) with hD
  have h1 : fromCols (X k) (t • Z k) = fromCols (X k) (Z k) * D := by
    rw [hD, fromCols_mul_fromBlocks]; simp
  have h2 : (t • fromBlocks A (-S) 1 A) * D = D * fromBlocks (t • A) (-(t • t • S)) 1 (t • A) := by
    rw [hD, fromBlocks_smul, fromBlocks_multiply, fromBlocks_multiply]
    congr 1 <;> simp
  have h3 : D * colSel p = colSel p := by
    rw [hD, colSel, fromBlocks_mul_fromRows]; simp
  have h4 : -(t • A) = t • -A := (smul_neg t A).symm
  rw [h1, h4]
  calc fromCols (X k) (Z k) * D * (NormedSpace.exp (fromBlocks (t • A) (-(t • t • S)) 1 (t • A)) *
          colSel p * NormedSpace.exp (t • -A))
      = fromCols (X k) (Z k) * ((D * NormedSpace.exp (fromBlocks (t • A) (-(t • t • S)) 1
          (t • A))) * colSel p * NormedSpace.exp (t • -A)) := by simp only [Matrix.mul_assoc]
    _ = fromCols (X k) (Z k) * (NormedSpace.exp (t • fromBlocks A (-S) 1 A) * (D * colSel p) *
          NormedSpace.exp (t • -A)) := by
        rw [← exp_intertwine h2]; simp only [Matrix.mul_assoc]
    _ = _ := by rw [h3]

omit [Fintype κ] in
/-- C68: the exponential of the zero vector is the point, and its initial velocity is the tangent
vector. -/
theorem C68_initial (X Z : Stack κ n p ℝ) :
    stExp X (stZero X) = X ∧ StackDeriv (fun t => stExp X (t • Z)) Z 0 := by
  constructor
  · funext k
    have h : stZero X = (0 : ℝ) • (0 : Stack κ n p ℝ) := (zero_smul ℝ _).symm
    rw [h, stExp_smul]
    simp only [zero_smul, NormedSpace.exp_zero, Matrix.one_mul, Matrix.mul_one]
    rw [colSel, fromCols_mul_fromRows]
    simp
  · rw [stackDeriv_iff]
    intro k
    set A := (X k)ᵀ * Z k
    set B := fromBlocks A (-((Z k)ᵀ * Z k)) 1 A with hB
    have h1 := (MatDeriv.const (fromCols (X k) (Z k)) 0).mul
      (((matDeriv_exp B 0).mul (MatDeriv.const (colSel p) 0)).mul (matDeriv_exp (-A) 0))
    refine (h1.congr_fun fun t => stExp_smul X Z t k).congr_deriv ?_
    simp only [zero_smul, NormedSpace.exp_zero, Matrix.one_mul, Matrix.mul_one, Matrix.zero_mul,
      Matrix.mul_zero, add_zero, zero_add, Matrix.mul_add]
    rw [hB, colSel, fromBlocks_mul_fromRows, ← Matrix.mul_assoc, fromCols_mul_fromRows,
      fromCols_mul_fromRows]
    simp

/-! ### C69 -/

omit [Fintype κ] in
theorem stWeingarten_mem {X V : Stack κ n p ℝ} (hX : OnStiefel X) (hV : StiefelTangent X V)
    (S : Stack κ p p ℝ) :
    ∀ k, stWeingarten X V (fun k => X k * S k) k =
      stProj X (fun k => -(V k * S k)) k := by
  intro k
  have hXk := onStiefel_iff.mp hX k
  rw [stWeingarten_apply, stProj_apply, ← Matrix.mul_assoc ((X k)ᵀ), hXk, Matrix.one_mul,
    ← Matrix.mul_assoc, stiefelTangent_iff.mp hV k, Matrix.mul_neg, Matrix.neg_mul,
    Matrix.mul_assoc ((X k)ᵀ)]

omit [Fintype κ] in
theorem stE2rh_eq {X V : Stack κ n p ℝ} (hX : OnStiefel X) (hV : StiefelTangent X V)
    (G H : Stack κ n p ℝ) (k : κ) :
    stE2rh X G H V k = stProj X H k +
      stProj X (fun k => -(V k * symPart ((X k)ᵀ * G k))) k := by
  have : G - stProj X G = fun k => X k * symPart ((X k)ᵀ * G k) := by
    funext k
    rw [Pi.sub_apply, stProj_apply, sub_sub_cancel]
  rw [stE2rh, subE2rh, this, Pi.add_apply,
    stWeingarten_mem hX hV fun k => symPart ((X k)ᵀ * G k)]

/-- C69: the converted Hessian maps tangent vectors to tangent vectors and is symmetric when the
Euclidean Hessian is. -/
theorem C69_symmetric (X G : Stack κ n p ℝ) (hX : OnStiefel X)
    (H : Stack κ n p ℝ → Stack κ n p ℝ)
    (hH : ∀ U V, ∑ k, ∑ i, ∑ j, U k i j * H V k i j = ∑ k, ∑ i, ∑ j, H U k i j * V k i j) :
    IsSymmOn (E := Stack κ n p ℝ) (stInner X) (StiefelTangent X)
      fun V => stE2rh X G (H V) V := by
  have hP := C66_projection X hX
  have hsum : ∀ A B : Stack κ n p ℝ, stInner X A B = ∑ k, ∑ i, ∑ j, A k i j * B k i j := by
    intro A B
    rw [stInner, stackTensordot, tensordot, Fintype.sum_prod_type]
    exact Finset.sum_congr rfl fun k _ => Fintype.sum_prod_type _
  have heq : ∀ V, StiefelTangent X V → stE2rh X G (H V) V =
      stProj X (H V) + stProj X (fun k => -(V k * symPart ((X k)ᵀ * G k))) :=
    fun V hV => funext fun k => stE2rh_eq hX hV G (H V) k
  refine ⟨?_, ?_⟩
  · intro V hV
    rw [heq V hV]
    exact (stiefelTangent_subspace X).add (hP.mem _) (hP.mem _)
  · intro U V hU hV
    rw [heq V hV, heq U hU]
    have hI := (C66_metric X X).1
    have h1 : stInner X U (H V) = stInner X (H U) V := by rw [hsum, hsum, hH]
    rw [hI.add_left, hI.add_right, ← hP.symm, ← hP.symm, hP.fixes hU, hP.represents _ hV,
      hP.represents _ hV, h1]
    congr 1
    rw [stInner_eq, stInner_eq, stackDot_eq, stackDot_eq]
    refine Finset.sum_congr rfl fun k _ => ?_
    rw [trDot_inner.neg_left, trDot_inner.neg_right, trDot_mul_right,
      conjTranspose_eq_transpose_of_trivial, symPart_transpose]

omit [Fintype κ] in
/-- C69: along every differentiable curve of orthonormal matrices the derivative of the Riemannian
gradient field, projected to the tangent space, is the converted Hessian; `g` is the Euclidean
gradient field and `H` its derivative along the curve. -/
theorem C69_derivative (c : ℝ → Stack κ n p ℝ) (V : Stack κ n p ℝ) (hon : ∀ t, OnStiefel (c t))
    (hc : StackDeriv c V 0) (g : Stack κ n p ℝ → Stack κ n p ℝ) (H : Stack κ n p ℝ)
    (hg : StackDeriv (fun t => g (c t)) H 0) :
    StiefelTangent (c 0) V ∧
    ∃ d, StackDeriv (fun t => stE2rg (c t) (g (c t))) d 0 ∧
      stProj (c 0) d = stE2rh (c 0) (g (c 0)) H V := by
  have hV : StiefelTangent (c 0) V := by
    rw [stiefelTangent_iff]
    intro k
    have h1 := MatDeriv.mul (MatDeriv.transpose (hc k)) (hc k)
    have h2 : MatDeriv (fun s => (c s k)ᵀ * c s k) 0 0 :=
      (MatDeriv.const 1 0).congr_fun fun s => onStiefel_iff.mp (hon s) k
    exact eq_neg_of_add_eq_zero_left (h1.unique h2)
  refine ⟨hV, fun k => H k - (V k * symPart ((c 0 k)ᵀ * g (c 0) k) +
    c 0 k * symPart ((V k)ᵀ * g (c 0) k + (c 0 k)ᵀ * H k)), ?_, ?_⟩
  · rw [stackDeriv_iff]
    intro k
    have h1 := MatDeriv.mul (MatDeriv.transpose (hc k)) (hg k)
    have h2 := (h1.add h1.transpose).smul (1 / 2)
    exact MatDeriv.sub (hg k) (MatDeriv.mul (hc k) h2)
  · funext k
    rw [stE2rh_eq (hon 0) hV, stProj_apply, stProj_apply, stProj_apply]
    have hX := onStiefel_iff.mp (hon 0) k
    set S := symPart ((c 0 k)ᵀ * g (c 0) k)
    set M := symPart ((V k)ᵀ * g (c 0) k + (c 0 k)ᵀ * H k) with hM
    have e1 : ∀ A B : Matrix p p ℝ, symPart (A - B) = symPart A - symPart B := by
      intro A B; simp only [symPart, transpose_sub]; module
    have e2 : ∀ A B : Matrix p p ℝ, symPart (A + B) = symPart A + symPart B := by
      intro A B; simp only [symPart, transpose_add]; module
    have e3 : ∀ A : Matrix p p ℝ, symPart (-A) = -symPart A := by
      intro A; simp only [symPart, transpose_neg]; module
    have e4 : symPart M = M := symPart_of_symm (symPart_transpose _)
    rw [Matrix.mul_sub, Matrix.mul_add, ← Matrix.mul_assoc _ _ M, hX, Matrix.one_mul, e1, e2, e4,
      Matrix.mul_neg, e3, Matrix.mul_sub, Matrix.mul_add, Matrix.mul_neg]
    abel

/-! ### Examples -/

/-- A point of `St(2, 1)` that is not a coordinate vector and a non-zero tangent vector, with its
QR and singular value factors. -/
example : OnStiefel (κ := Unit) (fun _ => !![(3 / 5 : ℝ); 4 / 5]) ∧
    StiefelTangent (κ := Unit) (fun _ => !![(3 / 5 : ℝ); 4 / 5]) (fun _ => !![(-4 : ℝ); 3]) ∧
    stProj (κ := Unit) (fun _ => !![(3 / 5 : ℝ); 4 / 5]) (fun _ => !![(1 : ℝ); 0]) ≠ 0 := by
  refine ⟨fun k i j => ?_, fun k i j => ?_, fun h => ?_⟩
  · fin_cases i; fin_cases j; simp [Fin.sum_univ_two]; norm_num
  · fin_cases i; fin_cases j; simp [Fin.sum_univ_two]; norm_num
  · have := congrFun (congrFun (congrFun h ()) 0) 0
    rw [stProj_apply] at this
    simp [symPart, vecMul, dotProduct, mul_apply, Fin.sum_univ_two] at this
    norm_num at this

example : IsQR (m := Fin 2) !![(3 : ℝ); 4] !![(-3 / 5 : ℝ); -4 / 5] !![(-5 : ℝ)] ∧
    IsSVD (m := Fin 2) !![(3 : ℝ); 4] !![(-3 / 5 : ℝ); -4 / 5] ![5] !![(-1 : ℝ)] := by
  refine ⟨⟨?_, ?_, ?_⟩, ⟨?_, ?_, ?_, ?_, ?_⟩⟩
  · ext i j; fin_cases i; fin_cases j; simp [mul_apply, Fin.sum_univ_two]; norm_num
  · ext i j; fin_cases i <;> fin_cases j <;> simp [mul_apply]
  · intro i j h; omega
  · ext i j; fin_cases i; fin_cases j; simp [mul_apply, Fin.sum_univ_two]; norm_num
  · ext i j; fin_cases i; fin_cases j; simp [mul_apply]
  · intro i; fin_cases i; simp
  · intro i j _; fin_cases i; fin_cases j; exact le_rfl
  · ext i j; fin_cases i <;> fin_cases j <;> simp [mul_apply]

end Verif.Geo
