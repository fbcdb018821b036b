/-
Dimensions of subspaces given by predicates.
-/
import Verif.Geo.Lemmas.Stack
import Mathlib.LinearAlgebra.BilinearForm.Orthogonal
import Mathlib.LinearAlgebra.Dimension.Constructions
import Mathlib.LinearAlgebra.FiniteDimensional.Lemmas
import Mathlib.LinearAlgebra.Complex.FiniteDimensional
import Mathlib.Data.Sym.Card

namespace Verif.Geo
open scoped BigOperators
open Matrix

/-- Real dimension of the vectors that satisfy `T` (of their span, if they are not a subspace). -/
noncomputable def tdim {E : Type*} [AddCommGroup E] [Module ℝ E] (T : E → Prop) : ℕ :=
  Module.finrank ℝ (Submodule.span ℝ {v | T v})

section
variable {E F : Type*} [AddCommGroup E] [Module ℝ E] [AddCommGroup F] [Module ℝ F]

/-- A subspace as a submodule. -/
def IsSubspace.sub {T : E → Prop} (hT : IsSubspace T) : Submodule ℝ E where
  carrier := {v | T v}
  add_mem' := fun h1 h2 => hT.add h1 h2
  zero_mem' := hT.zero
  smul_mem' := fun c _ h => hT.smul c h

theorem IsSubspace.mem_sub {T : E → Prop} (hT : IsSubspace T) {v : E} : v ∈ hT.sub ↔ T v := Iff.rfl

theorem tdim_eq {T : E → Prop} (hT : IsSubspace T) : tdim T = Module.finrank ℝ hT.sub := by
  have : Submodule.span ℝ {v | T v} = hT.sub := Submodule.span_eq hT.sub
  rw [tdim, this]

theorem tdim_congr {T T' : E → Prop} (h : ∀ v, T v ↔ T' v) : tdim T = tdim T' := by
  have : T = T' := funext fun v => propext (h v)
  rw [this]

theorem tdim_true : tdim (fun _ : E => True) = Module.finrank ℝ E := by
  rw [tdim]
  have : {v : E | True} = Set.univ := rfl
  rw [this, Submodule.span_univ, finrank_top]

/-- A subspace with a linear parametrisation. -/
theorem tdim_param {T : E → Prop} (hT : IsSubspace T) (f : E → F) (g : F →ₗ[ℝ] E)
    (mem : ∀ y, T (g y)) (inv : ∀ y, f (g y) = y) (surj : ∀ v, T v → g (f v) = v) :
    tdim T = Module.finrank ℝ F := by
  have : hT.sub = LinearMap.range g := by
    ext v
    rw [hT.mem_sub, LinearMap.mem_range]
    exact ⟨fun h => ⟨f v, surj v h⟩, by rintro ⟨y, rfl⟩; exact mem y⟩
  rw [tdim_eq hT, this, LinearMap.finrank_range_of_inj (Function.LeftInverse.injective inv)]

/-- The image of a subspace under an injective linear map. -/
theorem tdim_image {T : E → Prop} (hT : IsSubspace T) {R : F → Prop} (hR : IsSubspace R)
    (g : F →ₗ[ℝ] E) (h : ∀ v, T v ↔ ∃ y, R y ∧ g y = v) (inj : ∀ y, R y → g y = 0 → y = 0) :
    tdim T = tdim R := by
  rw [tdim_eq hT, tdim_eq hR]
  have : hT.sub = LinearMap.range (g.domRestrict hR.sub) := by
    ext v
    rw [hT.mem_sub, LinearMap.mem_range, h]
    constructor
    · rintro ⟨y, hy, rfl⟩; exact ⟨⟨y, hy⟩, rfl⟩
    · rintro ⟨⟨y, hy⟩, rfl⟩; exact ⟨y, hy, rfl⟩
  rw [this, LinearMap.finrank_range_of_inj]
  refine (injective_iff_map_eq_zero _).mpr ?_
  rintro ⟨y, hy⟩ h0
  exact Subtype.ext (inj y hy h0)

/-- Orthogonal complement of the image of a subspace. -/
theorem tdim_orth [FiniteDimensional ℝ E] {B : E → E → ℝ} (hB : IsInner B) {T : E → Prop}
    {R : F → Prop} (hR : IsSubspace R) (g : F →ₗ[ℝ] E)
    (h : ∀ v, T v ↔ ∀ y, R y → B (g y) v = 0) (inj : ∀ y, R y → g y = 0 → y = 0) :
    tdim T + tdim R = Module.finrank ℝ E := by
  let b : LinearMap.BilinForm ℝ E := LinearMap.mk₂ ℝ B hB.add_left hB.smul_left hB.add_right
    hB.smul_right
  have hsym : b.IsRefl := fun x y hxy => by
    change B y x = 0
    rw [hB.symm]
    exact hxy
  have hT : IsSubspace T := by
    refine ⟨(h 0).mpr fun y _ => hB.zero_right _, fun {u v} hu hv => (h _).mpr fun y hy => ?_,
      fun c u hu => (h _).mpr fun y hy => ?_⟩
    · rw [hB.add_right, (h u).mp hu y hy, (h v).mp hv y hy, add_zero]
    · rw [hB.smul_right, (h u).mp hu y hy, mul_zero]
  have hW : IsSubspace fun v => ∃ y, R y ∧ g y = v := by
    refine ⟨⟨0, hR.zero, map_zero g⟩, ?_, ?_⟩
    · rintro u v ⟨x, hx, rfl⟩ ⟨y, hy, rfl⟩
      exact ⟨x + y, hR.add hx hy, map_add g x y⟩
    · rintro c u ⟨x, hx, rfl⟩
      exact ⟨c • x, hR.smul c hx, map_smul g c x⟩
  rw [← tdim_image hW hR g (fun v => Iff.rfl) inj, tdim_eq hT, tdim_eq hW]
  have horth : hT.sub = b.orthogonal hW.sub := by
    ext v
    rw [hT.mem_sub, LinearMap.BilinForm.mem_orthogonal_iff, h]
    constructor
    · rintro h' n ⟨y, hy, rfl⟩; exact h' y hy
    · intro h' y hy; exact h' _ ⟨y, hy, rfl⟩
  have hnd : b.Nondegenerate := by
    refine ⟨fun x hx => hB.definite x (hx x), fun x hx => hB.definite x (hx x)⟩
  have := LinearMap.BilinForm.finrank_orthogonal hnd hW.sub
  rw [← horth] at this
  rw [this]
  exact Nat.sub_add_cancel (Submodule.finrank_le _)

end

/-- Subspaces of stacks that are described matrix by matrix. -/
theorem tdim_pi {κ : Type*} [Fintype κ] {E : κ → Type*} [∀ k, AddCommGroup (E k)]
    [∀ k, Module ℝ (E k)] [∀ k, FiniteDimensional ℝ (E k)] {T : ∀ k, E k → Prop}
    (hT : ∀ k, IsSubspace (T k)) :
    tdim (fun V : ∀ k, E k => ∀ k, T k (V k)) = ∑ k, tdim (T k) := by
  have hP := IsSubspace.pi hT
  simp only [tdim_eq (hT _)]
  rw [tdim_eq hP, ← Module.finrank_pi_fintype ℝ]
  refine LinearEquiv.finrank_eq
    { toFun := fun V k => ⟨V.1 k, V.2 k⟩
      map_add' := fun _ _ => rfl
      map_smul' := fun _ _ => rfl
      invFun := fun W => ⟨fun k => (W k).1, fun k => (W k).2⟩
      left_inv := fun _ => rfl
      right_inv := fun _ => rfl }

/-- Pairs. -/
theorem tdim_prod {E F : Type*} [AddCommGroup E] [Module ℝ E] [AddCommGroup F] [Module ℝ F]
    [FiniteDimensional ℝ E] [FiniteDimensional ℝ F] {T : E → Prop} {S : F → Prop}
    (hT : IsSubspace T) (hS : IsSubspace S) :
    tdim (fun v : E × F => T v.1 ∧ S v.2) = tdim T + tdim S := by
  have hP : IsSubspace fun v : E × F => T v.1 ∧ S v.2 :=
    ⟨⟨hT.zero, hS.zero⟩, fun h1 h2 => ⟨hT.add h1.1 h2.1, hS.add h1.2 h2.2⟩,
      fun c _ h => ⟨hT.smul c h.1, hS.smul c h.2⟩⟩
  rw [tdim_eq hP, tdim_eq hT, tdim_eq hS, ← Module.finrank_prod]
  exact LinearEquiv.finrank_eq
    { toFun := fun V => (⟨V.1.1, V.2.1⟩, ⟨V.1.2, V.2.2⟩)
      map_add' := fun _ _ => rfl
      map_smul' := fun _ _ => rfl
      invFun := fun W => ⟨(W.1.1, W.2.1), W.1.2, W.2.2⟩
      left_inv := fun _ => rfl
      right_inv := fun _ => rfl }

section matrices
variable {n : Type*} [Fintype n]

omit [Fintype n] in
theorem symm_subspace : IsSubspace fun A : Matrix n n ℝ => Aᵀ = A :=
  ⟨transpose_zero, fun h1 h2 => by rw [transpose_add, h1, h2],
    fun c _ h => by rw [transpose_smul, h]⟩

omit [Fintype n] in
theorem skew_subspace : IsSubspace fun A : Matrix n n ℝ => Aᵀ = -A :=
  ⟨by rw [transpose_zero, neg_zero], fun h1 h2 => by rw [transpose_add, h1, h2, neg_add],
    fun c _ h => by rw [transpose_smul, h, smul_neg]⟩

theorem tdim_symm : tdim (fun A : Matrix n n ℝ => Aᵀ = A) = (Fintype.card n + 1).choose 2 := by
  rw [← Sym2.card, ← Module.finrank_fintype_fun_eq_card (R := ℝ)]
  refine tdim_param symm_subspace
    (fun A s => Sym2.lift ⟨fun i j => (A i j + A j i) / 2, fun i j => by
      change (A i j + A j i) / 2 = (A j i + A i j) / 2
      rw [add_comm]⟩ s)
    { toFun := fun y => of fun i j => y s(i, j)
      map_add' := fun _ _ => rfl
      map_smul' := fun _ _ => rfl } ?_ ?_ ?_
  · intro y
    ext i j
    change y s(j, i) = y s(i, j)
    rw [Sym2.eq_swap]
  · intro y
    funext s
    induction s with
    | _ i j =>
      change (y s(i, j) + y s(j, i)) / 2 = y s(i, j)
      rw [Sym2.eq_swap (a := j)]
      ring
  · intro A hA
    ext i j
    change (A i j + A j i) / 2 = A i j
    have : A j i = A i j := congrFun (congrFun hA i) j
    rw [this]
    ring

/-- The matrices orthogonal to all symmetric ones are the skew-symmetric ones. -/
theorem skew_iff_orth (A : Matrix n n ℝ) :
    Aᵀ = -A ↔ ∀ S : Matrix n n ℝ, Sᵀ = S → trDot S A = 0 := by
  constructor
  · intro hA S hS
    exact trDot_symm_skew hS hA
  · intro hA
    have hs : (A + Aᵀ)ᵀ = A + Aᵀ := by rw [transpose_add, transpose_transpose, add_comm]
    have h1 := hA _ hs
    have h2 : trDot (A + Aᵀ) (A + Aᵀ) = 0 := by
      rw [trDot_inner.add_right, h1, zero_add]
      have : trDot (A + Aᵀ) Aᵀ = trDot (A + Aᵀ) A := by
        rw [← trDot_transpose, hs, transpose_transpose]
      rw [this, h1]
    have h3 := trDot_inner.definite _ h2
    rw [add_comm] at h3
    exact eq_neg_of_add_eq_zero_left h3

/-- The matrices orthogonal to all skew-Hermitian ones are the Hermitian ones. -/
theorem herm_iff_orth {𝕜 : Type*} [RCLike 𝕜] (A : Matrix n n 𝕜) :
    Aᴴ = A ↔ ∀ S : Matrix n n 𝕜, Sᴴ = -S → trDot S A = 0 := by
  constructor
  · intro hA S hS
    rw [trDot_inner.symm]
    exact trDot_herm_skew hA hS
  · intro hA
    have hs : (A - Aᴴ)ᴴ = -(A - Aᴴ) := by
      rw [conjTranspose_sub, conjTranspose_conjTranspose, neg_sub]
    have h1 := hA _ hs
    have h2 : trDot (A - Aᴴ) (A - Aᴴ) = 0 := by
      rw [trDot_inner.sub_right, h1, zero_sub, neg_eq_zero]
      have : trDot (A - Aᴴ) Aᴴ = -trDot (A - Aᴴ) A := by
        rw [← trDot_conjTranspose, hs, conjTranspose_conjTranspose, trDot_inner.neg_left]
      rw [this, h1, neg_zero]
    exact (sub_eq_zero.mp (trDot_inner.definite _ h2)).symm

theorem tdim_skew : tdim (fun A : Matrix n n ℝ => Aᵀ = -A) = (Fintype.card n).choose 2 := by
  have h := tdim_orth (trDot_inner (m := n) (n := n) (𝕜 := ℝ))
    (T := fun A : Matrix n n ℝ => Aᵀ = -A) symm_subspace LinearMap.id (fun A => skew_iff_orth A)
    (fun _ _ h => h)
  rw [tdim_symm, Module.finrank_matrix, Module.finrank_self, mul_one] at h
  have h2 : (Fintype.card n + 1).choose 2 = Fintype.card n + (Fintype.card n).choose 2 := by
    rw [Nat.choose_succ_succ' (Fintype.card n) 1, Nat.choose_one_right]
  have h3 : (Fintype.card n).choose 2 * 2 = Fintype.card n * (Fintype.card n - 1) := by
    rw [Nat.choose_two_right]
    exact Nat.div_mul_cancel (Nat.even_mul_pred_self _).two_dvd
  rcases Nat.eq_zero_or_pos (Fintype.card n) with h0 | h0
  · simp [h0] at h ⊢
    exact h
  · obtain ⟨N, hN⟩ : ∃ N, Fintype.card n = N + 1 := ⟨_, (Nat.succ_pred_eq_of_pos h0).symm⟩
    rw [h2] at h
    rw [hN] at h h3 ⊢
    rw [Nat.add_sub_cancel] at h3
    nlinarith [h, h3]

omit [Fintype n] in
theorem herm_subspace : IsSubspace fun A : Matrix n n ℂ => Aᴴ = A :=
  ⟨conjTranspose_zero, fun h1 h2 => by rw [conjTranspose_add, h1, h2],
    fun c _ h => by rw [conjTranspose_smul, h, star_trivial]⟩

omit [Fintype n] in
theorem skewherm_subspace : IsSubspace fun A : Matrix n n ℂ => Aᴴ = -A :=
  ⟨by rw [conjTranspose_zero, neg_zero], fun h1 h2 => by rw [conjTranspose_add, h1, h2, neg_add],
    fun c _ h => by rw [conjTranspose_smul, h, star_trivial, smul_neg]⟩

theorem tdim_herm : tdim (fun A : Matrix n n ℂ => Aᴴ = A) = Fintype.card n ^ 2 := by
  have hf : Module.finrank ℝ (Matrix n n ℝ) = Fintype.card n ^ 2 := by
    rw [Module.finrank_matrix, Module.finrank_self, mul_one, sq]
  rw [← hf]
  refine tdim_param herm_subspace (fun A => of fun i j => (A i j).re + (A i j).im)
    { toFun := fun M => of fun i j => (⟨(M i j + M j i) / 2, (M i j - M j i) / 2⟩ : ℂ)
      map_add' := fun M N => ?_
      map_smul' := fun c M => ?_ } ?_ ?_ ?_
  · ext i j
    apply Complex.ext <;> simp <;> ring
  · ext i j
    apply Complex.ext <;> simp <;> ring
  · intro M
    ext i j
    apply Complex.ext <;> simp <;> ring
  · intro M
    ext i j
    simp
    ring
  · intro A hA
    ext i j
    have hr : (A j i).re = (A i j).re := by
      have := congrArg Complex.re (congrFun (congrFun hA i) j)
      simpa using this
    have hi : (A j i).im = -(A i j).im := by
      have := congrArg Complex.im (congrFun (congrFun hA i) j)
      simp at this
      linarith
    apply Complex.ext <;> simp [hr, hi]
    ring

theorem tdim_skewherm : tdim (fun A : Matrix n n ℂ => Aᴴ = -A) = Fintype.card n ^ 2 := by
  rw [← tdim_herm]
  refine tdim_image skewherm_subspace herm_subspace
    { toFun := fun A => Complex.I • A
      map_add' := fun A B => smul_add _ A B
      map_smul' := fun c A => smul_comm _ c A } ?_ ?_
  · intro A
    constructor
    · intro hA
      refine ⟨-Complex.I • A, ?_, ?_⟩
      · rw [conjTranspose_smul, hA]
        simp
      · change Complex.I • (-Complex.I • A) = A
        rw [smul_smul]
        simp
    · rintro ⟨B, hB, rfl⟩
      change (Complex.I • B)ᴴ = -(Complex.I • B)
      rw [conjTranspose_smul, hB]
      simp
  · intro A _ h0
    exact (smul_eq_zero.mp h0).resolve_left Complex.I_ne_zero

end matrices

end Verif.Geo
