/-
C97, C119, C166 on stacks of rotations, with what `np.vectorize` stores.
-/
import Verif.Geo.Model.GroupStack
import Verif.Geo.Props.MidpointGroup
import Verif.Geo.Props.TypicalDist

namespace Verif.Geo
open scoped BigOperators
open Matrix

variable {n : Type*} [Fintype n] [DecidableEq n] {k : ℕ}

/-! ### Lemmas -/

/-- The principal logarithm maps the eigenvectors for `-1` to their multiples by `iπ`. -/
theorem logm_neg_eigen {Q L : Matrix n n ℂ} (hQ : Qᴴ * Q = 1) (hL : IsLogm Q L) {x : n → ℂ}
    (hx : Q *ᵥ x = -x) : L *ᵥ x = ((Real.pi : ℂ) * Complex.I) • x := by
  obtain ⟨w, u, hw, hu, he⟩ := hL.diag hQ
  have huu : u * uᴴ = 1 := mul_eq_one_comm.mp hu
  obtain ⟨y, hy⟩ : ∃ y, y = uᴴ *ᵥ x := ⟨_, rfl⟩
  have hxy : x = u *ᵥ y := by rw [hy, mulVec_mulVec, huu, one_mulVec]
  have hexp := hL.exp
  rw [he, exp_unitary_diag hu] at hexp
  have h1 : diagonal (fun i => Complex.exp (w i * Complex.I)) *ᵥ y = -y := by
    have := congrArg (fun z => uᴴ *ᵥ z) hx
    rw [← hexp] at this
    change uᴴ *ᵥ (_ *ᵥ _) = uᴴ *ᵥ (-_) at this
    rw [mulVec_mulVec, ← Matrix.mul_assoc, ← Matrix.mul_assoc, hu, Matrix.one_mul,
      ← mulVec_mulVec, ← hy, mulVec_neg, ← hy] at this
    exact this
  have h2 : diagonal (fun i => (w i : ℂ) * Complex.I) *ᵥ y = ((Real.pi : ℂ) * Complex.I) • y := by
    ext i
    have h3 := congrFun h1 i
    rw [mulVec_diagonal, Pi.neg_apply] at h3
    rw [mulVec_diagonal, Pi.smul_apply, smul_eq_mul]
    by_cases hyi : y i = 0
    · rw [hyi, mul_zero, mul_zero]
    · have h4 : Complex.exp (w i * Complex.I) = -1 := by
        have h5 : (Complex.exp (w i * Complex.I) + 1) * y i = 0 := by
          rw [add_mul, h3, one_mul, neg_add_cancel]
        exact eq_neg_of_add_eq_zero_left ((mul_eq_zero.mp h5).resolve_right hyi)
      have h6 : (Complex.exp (w i * Complex.I)).arg = Real.pi := by
        rw [h4]; exact Complex.arg_neg_one
      rw [Complex.arg_exp_mul_I, (toIocMod_eq_self Real.two_pi_pos).mpr
        ⟨(hw i).1, by linarith [(hw i).2]⟩] at h6
      rw [h6]
  rw [he, hxy, mulVec_mulVec, Matrix.mul_assoc, hu, Matrix.mul_one, ← mulVec_mulVec, h2,
    mulVec_smul]

omit [DecidableEq n] in
private theorem quot_real {A B : Stack (Fin (k + 1)) n n ℝ} (s : Fin (k + 1)) :
    (multiprod (multihconj A) B s).map Complex.ofReal = (cplx A s)ᴴ * cplx B s := by
  change ((A s)ᴴ * B s).map Complex.ofReal = ((A s).map Complex.ofReal)ᴴ * (B s).map Complex.ofReal
  rw [map_conjTranspose_real, ← map_mul_real]

private theorem quot_orth {A B : Stack (Fin (k + 1)) n n ℝ} (hA : OnUnitary A) (hB : OnUnitary B)
    (s : Fin (k + 1)) : ((A s)ᴴ * B s)ᴴ * ((A s)ᴴ * B s) = 1 := by
  rw [conjTranspose_mul, conjTranspose_conjTranspose, Matrix.mul_assoc, ← Matrix.mul_assoc (A s),
    hA.right, Matrix.one_mul]
  exact hB s

omit [Fintype n] [DecidableEq n] in
private theorem im_zero_iff {L : Matrix n n ℂ} :
    (∀ i j, (L i j).im = 0) ↔ ∃ W : Matrix n n ℝ, L = W.map Complex.ofReal := by
  constructor
  · intro h
    refine ⟨L.map Complex.re, ?_⟩
    ext i j
    exact Complex.ext (by simp) (by simp [h i j])
  · rintro ⟨W, rfl⟩ i j
    simp

/-! ### The logarithm -/

/-- **C97**, stacks of rotations: if the first quotient has the eigenvalue `-1`, or no quotient has it,
as always for a single rotation, `log` returns the principal logarithms. -/
theorem C97_so_stack {A B : Stack (Fin (k + 1)) n n ℝ} (hA : OnUnitary A) (hB : OnUnitary B)
    (h : (∃ v : n → ℝ, v ≠ 0 ∧ ((A 0)ᴴ * B 0) *ᵥ v = -v) ∨
      ∀ s (v : n → ℝ), ((A s)ᴴ * B s) *ᵥ v = -v → v = 0) (V : Stack (Fin (k + 1)) n n ℂ) :
    IsSOLog A B V ↔ IsGLog (cplx A) (cplx B) V := by
  have key : ∀ L : Stack (Fin (k + 1)) n n ℂ,
      (∀ s, IsLogm ((multiprod (multihconj A) B s).map Complex.ofReal) (L s)) →
        storeStack L = L := by
    intro L hL
    unfold storeStack
    split
    · rename_i h0
      have hr := fun s => logm_real_iff (quot_orth hA hB s) (hL s)
      rcases h with ⟨v, hv, hQ⟩ | h
      · exact absurd ((hr 0).1 (im_zero_iff.1 h0) v hQ) hv
      · funext s
        obtain ⟨W, hW⟩ := (hr s).2 (h s)
        rw [hW]
        ext i j
        simp
    · rfl
  have hq : ∀ s, (multiprod (multihconj A) B s).map Complex.ofReal =
      multiprod (multihconj (cplx A)) (cplx B) s := fun s => quot_real s
  constructor
  · rintro ⟨L, hL, rfl⟩
    exact ⟨L, fun s => hq s ▸ hL s, by rw [key L hL]⟩
  · rintro ⟨L, hL, rfl⟩
    have hL' : ∀ s, IsLogm ((multiprod (multihconj A) B s).map Complex.ofReal) (L s) :=
      fun s => by rw [hq]; exact hL s
    exact ⟨L, hL', by rw [key L hL']⟩

/-- **C97** is false for stacks of rotations where the first quotient does not have the eigenvalue
`-1` and another one has: `log` returns a tangent vector that `exp` does not map to the second
point. -/
theorem C97_so_stack_negation {A B : Stack (Fin (k + 1)) n n ℝ} (hA : OnUnitary A)
    (hB : OnUnitary B) (h0 : ∀ v : n → ℝ, ((A 0)ᴴ * B 0) *ᵥ v = -v → v = 0) {s : Fin (k + 1)}
    {x : n → ℝ} (hx : x ≠ 0) (hs : ((A s)ᴴ * B s) *ᵥ x = -x) {V : Stack (Fin (k + 1)) n n ℂ}
    (h : IsSOLog A B V) : ∃ W, V = cplx W ∧ InLie W ∧ gExp A W ≠ B := by
  obtain ⟨L, hL, rfl⟩ := h
  have hi : ∀ i j, (L 0 i j).im = 0 :=
    im_zero_iff.2 ((logm_real_iff (quot_orth hA hB 0) (hL 0)).2 h0)
  have hQc : ∀ t, ((multiprod (multihconj A) B t).map Complex.ofReal)ᴴ *
      (multiprod (multihconj A) B t).map Complex.ofReal = 1 := fun t => by
    change (((A t)ᴴ * B t).map Complex.ofReal)ᴴ * ((A t)ᴴ * B t).map Complex.ofReal = 1
    rw [map_conjTranspose_real, ← map_mul_real, quot_orth hA hB]
    exact Matrix.map_one _ Complex.ofReal_zero Complex.ofReal_one
  set W : Stack (Fin (k + 1)) n n ℝ := fun t => (L t).map Complex.re with hW
  have hlie : InLie W := by
    intro t
    have h1 := (hL t).skew (hQc t)
    ext i j
    have h2 := congrArg Complex.re (congrFun (congrFun h1 i) j)
    simpa [hW, conjTranspose_apply] using h2
  have hst : storeStack L = cplx W := by
    unfold storeStack
    rw [if_pos hi]
    funext t
    ext i j
    simp [cplx, hW]
  refine ⟨W, ?_, hlie, fun hB' => hx ?_⟩
  · rw [hst]
    funext t
    rw [multiskewh_apply, skewPart_of_skew]
    change ((W t).map Complex.ofReal)ᴴ = -(W t).map Complex.ofReal
    rw [map_conjTranspose_real, show (W t)ᴴ = -W t from hlie t]
    ext i j
    simp
  · -- the eigenvector is not moved
    have h1 : L s *ᵥ (fun j => (x j : ℂ)) = ((Real.pi : ℂ) * Complex.I) • fun j => (x j : ℂ) := by
      refine logm_neg_eigen (hQc s) (hL s) ?_
      ext j
      have := congrArg Complex.ofReal (congrFun hs j)
      change (((A s)ᴴ * B s).map Complex.ofReal *ᵥ fun j => (x j : ℂ)) j = _
      simpa [mulVec, dotProduct] using this
    have h2 : W s *ᵥ x = (0 : ℝ) • x := by
      rw [zero_smul]
      ext j
      have := congrArg Complex.re (congrFun h1 j)
      simpa [mulVec, dotProduct, hW] using this
    have h3 : NormedSpace.exp (W s) *ᵥ x = x := by
      have h4 : ((W s).map Complex.ofReal) *ᵥ (fun j => (x j : ℂ)) =
          (0 : ℂ) • fun j => (x j : ℂ) := by
        rw [zero_smul]
        ext j
        have := congrArg Complex.ofReal (congrFun h2 j)
        simpa [mulVec, dotProduct] using this
      have h5 := exp_mulVec_eigen h4
      rw [Complex.exp_zero, one_smul, exp_map_real] at h5
      ext j
      have := congrArg Complex.re (congrFun h5 j)
      simpa [mulVec, dotProduct] using this
    have h6 : (A s)ᴴ * B s = NormedSpace.exp (W s) := by
      rw [← hB']
      change (A s)ᴴ * (A s * NormedSpace.exp (W s)) = _
      rw [← Matrix.mul_assoc, hA s, Matrix.one_mul]
    rw [h6, h3] at hs
    exact self_eq_neg.1 hs

/-- The hypotheses are met: two identities, and the identity and the half turn of the plane. -/
example : ∃ A B : Stack (Fin 2) (Fin 2) (Fin 2) ℝ, OnSO A ∧ OnSO B ∧
    (∀ v : Fin 2 → ℝ, ((A 0)ᴴ * B 0) *ᵥ v = -v → v = 0) ∧
    ∃ x : Fin 2 → ℝ, x ≠ 0 ∧ ((A 1)ᴴ * B 1) *ᵥ x = -x := by
  refine ⟨fun _ => 1, ![1, -1], ⟨fun s => by simp, fun s => by simp⟩,
    ⟨fun s => by fin_cases s <;> simp, fun s => by fin_cases s <;> simp [Matrix.det_neg]⟩,
    fun v hv => ?_, ![1, 0], fun h => by simpa using congrFun h 0, ?_⟩
  · simp only [conjTranspose_one, Matrix.one_mul, Matrix.cons_val_zero, one_mulVec] at hv
    exact self_eq_neg.1 hv
  · simp [Matrix.neg_mulVec]

/-- The condition of `C97_so_stack` holds for a stack with the first quotient the half turn, whatever
the others are, and for every pair of equal points. -/
example (R : Matrix (Fin 2) (Fin 2) ℝ) (hR : Rᴴ * R = 1) (V : Stack (Fin 2) (Fin 2) (Fin 2) ℂ) :
    (IsSOLog (fun _ => 1) ![-1, R] V ↔ IsGLog (cplx fun _ => 1) (cplx ![-1, R]) V) ∧
      (IsSOLog ![1, R] ![1, R] V ↔ IsGLog (cplx ![1, R]) (cplx ![1, R]) V) := by
  have h1 : OnUnitary (![1, R] : Stack (Fin 2) (Fin 2) (Fin 2) ℝ) := fun s => by
    fin_cases s
    · simp
    · exact hR
  refine ⟨C97_so_stack (fun s => by simp) (fun s => ?_) (.inl ⟨![1, 0], ?_, ?_⟩) V,
    C97_so_stack h1 h1 (.inr fun s v hv => ?_) V⟩
  · fin_cases s
    · simp
    · exact hR
  · exact fun h => by simpa using congrFun h 0
  · simp [Matrix.neg_mulVec]
  · rw [h1 s, one_mulVec] at hv
    exact self_eq_neg.1 hv

/-! ### The distance -/

/-- **C97**, stacks of rotations: then `dist` is the length of the principal logarithms. -/
theorem C97_so_stack_dist {A B : Stack (Fin (k + 1)) n n ℝ} (hA : OnUnitary A) (hB : OnUnitary B)
    (h : (∃ v : n → ℝ, v ≠ 0 ∧ ((A 0)ᴴ * B 0) *ᵥ v = -v) ∨
      ∀ s (v : n → ℝ), ((A s)ᴴ * B s) *ᵥ v = -v → v = 0) (d : ℝ) :
    IsSODist A B d ↔ IsGDist (cplx A) (cplx B) d :=
  exists_congr fun V => and_congr (C97_so_stack hA hB h V) Iff.rfl

/-- **C97**, stacks of rotations: in general `dist` has one value, which is not negative and at most
the length of the principal logarithms. -/
theorem C97_so_stack_dist_le {A B : Stack (Fin (k + 1)) n n ℝ} (hA : OnUnitary A)
    (hB : OnUnitary B) : (∃! d, IsSODist A B d) ∧
      ∀ d e, IsSODist A B d → IsGDist (cplx A) (cplx B) e → 0 ≤ d ∧ d ≤ e := by
  have hq : ∀ s, (multiprod (multihconj A) B s).map Complex.ofReal = (cplx A s)ᴴ * cplx B s :=
    fun s => quot_real s
  have hAc := onUnitary_cplx hA
  have hBc := onUnitary_cplx hB
  obtain ⟨L, hL, hu⟩ := C97_total hAc hBc
  have hL' := (isGLog_iff hAc hBc).1 hL
  have huL : ∀ L' : Stack (Fin (k + 1)) n n ℂ,
      (∀ s, IsLogm ((multiprod (multihconj A) B s).map Complex.ofReal) (L' s)) → L' = L :=
    fun L' h => hu L' ((isGLog_iff hAc hBc).2 fun s => hq s ▸ h s)
  refine ⟨⟨_, ⟨_, ⟨L, fun s => by rw [hq]; exact hL' s, rfl⟩, rfl⟩, ?_⟩, ?_⟩
  · rintro d ⟨V, ⟨L', h, rfl⟩, rfl⟩
    rw [huL L' h]
  · rintro d e ⟨V, ⟨L', h, rfl⟩, rfl⟩ ⟨V', h', rfl⟩
    rw [huL L' h, hu V' h']
    refine ⟨stackNorm_nonneg _, ?_⟩
    have hsk : ∀ s, (L s)ᴴ = -L s := (C97_log hAc hBc hL).1
    have hms : multiskewh (storeStack L) = storeStack L := by
      funext s
      rw [multiskewh_apply, skewPart_of_skew]
      unfold storeStack
      split
      · ext i j
        have := congrArg Complex.re (congrFun (congrFun (hsk s) i) j)
        simp only [conjTranspose_apply, Matrix.map_apply, Matrix.neg_apply] at this ⊢
        rw [Complex.star_def, Complex.conj_ofReal]
        rw [Complex.star_def, Complex.conj_re, Complex.neg_re] at this
        rw [this, Complex.ofReal_neg]
      · exact hsk s
    rw [hms]
    change stackNorm _ ≤ stackNorm _
    unfold stackNorm npNorm
    refine Real.sqrt_le_sqrt (Finset.sum_le_sum fun x _ => ?_)
    have : ‖storeStack L x.1 x.2.1 x.2.2‖ ≤ ‖L x.1 x.2.1 x.2.2‖ := by
      unfold storeStack
      split
      · change ‖((L x.1 x.2.1 x.2.2).re : ℂ)‖ ≤ _
        rw [Complex.norm_real]
        exact Complex.abs_re_le_norm _
      · exact le_rfl
    gcongr

private theorem isLogm_transpose {Q L : Matrix n n ℂ} (h : IsLogm Q L) : IsLogm Qᵀ Lᵀ := by
  refine ⟨by rw [exp_transpose, h.exp], fun μ v hv he => ?_⟩
  have h1 : (L - μ • 1)ᵀ.det = 0 := by
    refine exists_mulVec_eq_zero_iff.1 ⟨v, hv, ?_⟩
    rw [transpose_sub, transpose_smul, transpose_one, sub_mulVec, he, smul_mulVec, one_mulVec,
      sub_self]
  rw [det_transpose] at h1
  obtain ⟨w, hw, h2⟩ := exists_mulVec_eq_zero_iff.2 h1
  rw [sub_mulVec, smul_mulVec, one_mulVec, sub_eq_zero] at h2
  exact h.strip μ w hw h2

/-- **C119**, stacks of rotations, with the distances as computed: `dist` has one value, is not
negative, is zero for equal points, and symmetric.  Missing: that it is zero only for equal points,
which is false (`C119_special_orthogonal_negation`), and the triangle inequality. -/
theorem C119_special_orthogonal_stack_partial {A B : Stack (Fin (k + 1)) n n ℝ} (hA : OnSO A)
    (hB : OnSO B) : (∃! d, IsSODist A B d) ∧
      ∀ d, IsSODist A B d → 0 ≤ d ∧ (A = B → d = 0) ∧ IsSODist B A d := by
  have hAc := onUnitary_cplx hA.1
  have hBc := onUnitary_cplx hB.1
  obtain ⟨h1, h2⟩ := C97_so_stack_dist_le hA.1 hB.1
  obtain ⟨e, he, -⟩ := (C97_dist hAc hBc).1
  refine ⟨h1, fun d hd => ⟨(h2 d e hd he).1, fun h => ?_, ?_⟩⟩
  · refine le_antisymm ?_ (h2 d e hd he).1
    rw [← (((C97_dist hAc hBc).2 e he).2.2 (congrArg cplx h))]
    exact (h2 d e hd he).2
  · obtain ⟨V, ⟨L, hL, rfl⟩, rfl⟩ := hd
    refine ⟨_, ⟨fun s => (L s)ᵀ, fun s => ?_, rfl⟩, ?_⟩
    · have e : (multiprod (multihconj B) A s).map Complex.ofReal =
          ((multiprod (multihconj A) B s).map Complex.ofReal)ᵀ := by
        change ((B s)ᴴ * A s).map Complex.ofReal = (((A s)ᴴ * B s).map Complex.ofReal)ᵀ
        rw [← transpose_map, transpose_mul, conjTranspose_eq_transpose_of_trivial,
          conjTranspose_eq_transpose_of_trivial, transpose_transpose]
      rw [e]
      exact isLogm_transpose (hL s)
    · have e1 : storeStack (fun s => (L s)ᵀ) = fun s => (storeStack L s)ᵀ := by
        unfold storeStack
        split
        · rename_i h
          have h' : ∀ i j, (L 0 i j).im = 0 := fun i j => h j i
          rw [if_pos h']
          rfl
        · rename_i h
          have h' : ¬∀ i j, (L 0 i j).im = 0 := fun h' => h fun i j => h' j i
          rw [if_neg h']
      have e2 : multiskewh (fun s => (storeStack L s)ᵀ) =
          fun s => (multiskewh (storeStack L) s)ᵀ := by
        funext s
        ext i j
        simp [multiskewh_apply, skewPart]
      rw [e1, e2]
      change stackNorm _ = stackNorm _
      unfold stackNorm npNorm
      simp only [Fintype.sum_prod_type, transpose_apply]
      exact congrArg Real.sqrt (Finset.sum_congr rfl fun s _ => Finset.sum_comm)

/-- **C120**, stacks of rotations, with the distances as computed. -/
theorem C120_special_orthogonal_stack {n : ℕ} {A B : Stack (Fin (k + 1)) (Fin n) (Fin n) ℝ}
    (hA : OnSO A) (hB : OnSO B) {d : ℝ} (hd : IsSODist A B d) : d ≤ gTypical n (k + 1) := by
  obtain ⟨e, he, -⟩ := (C97_dist (onUnitary_cplx hA.1) (onUnitary_cplx hB.1)).1
  exact ((C97_so_stack_dist_le hA.1 hB.1).2 d e hd he).2.trans (C120_special_orthogonal hA hB he).1

private theorem single_agrees {A B : Stack (Fin 1) n n ℝ} (hA : OnUnitary A) (hB : OnUnitary B)
    (V : Stack (Fin 1) n n ℂ) : IsSOLog A B V ↔ IsGLog (cplx A) (cplx B) V := by
  refine C97_so_stack hA hB ?_ V
  by_cases h : ∃ v : n → ℝ, v ≠ 0 ∧ ((A 0)ᴴ * B 0) *ᵥ v = -v
  · exact .inl h
  · refine .inr fun s v hv => ?_
    by_contra hne
    rw [show s = 0 from Subsingleton.elim (α := Fin 1) s 0] at hv
    exact h ⟨v, hne, hv⟩

private theorem single_dist {A B : Stack (Fin 1) n n ℝ} (hA : OnUnitary A) (hB : OnUnitary B)
    (d : ℝ) : IsSODist A B d ↔ IsGDist (cplx A) (cplx B) d :=
  exists_congr fun V => and_congr (single_agrees hA hB V) Iff.rfl

/-- **C119**, one special orthogonal group: `dist` is a metric. -/
theorem C119_special_orthogonal_single :
    IsMetricOn (OnSO (κ := Fin 1) (n := n)) Eq IsSODist := by
  have h := C119_special_orthogonal (κ := Fin 1) (n := n)
  have e : ∀ {X Y : Stack (Fin 1) n n ℝ} {d : ℝ}, OnSO X → OnSO Y →
      (IsSODist X Y d ↔ IsGDist (cplx X) (cplx Y) d) := fun hX hY => single_dist hX.1 hY.1 _
  exact {
    total := fun x y hx hy => by
      obtain ⟨d, hd, hu⟩ := h.total x y hx hy
      exact ⟨d, (e hx hy).2 hd, fun d' hd' => hu d' ((e hx hy).1 hd')⟩
    nonneg := fun x y d hx hy hd => h.nonneg x y d hx hy ((e hx hy).1 hd)
    zero := fun x y d hx hy hd => h.zero x y d hx hy ((e hx hy).1 hd)
    symm := fun x y d hx hy hd => (e hy hx).2 (h.symm x y d hx hy ((e hx hy).1 hd))
    triangle := fun x y z a b c hx hy hz h1 h2 h3 => h.triangle x y z a b c hx hy hz
      ((e hx hy).1 h1) ((e hy hz).1 h2) ((e hx hz).1 h3) }

/-- **C166**, one special orthogonal group, with the distances as computed. -/
theorem C166_special_orthogonal_single {A B : Stack (Fin 1) n n ℝ} {M : Stack (Fin 1) n n ℂ}
    (hA : OnSO A) (hB : OnSO B) (hM : IsGPairMean (cplx A) (cplx B) M)
    (hne : ∀ s (x : n → ℝ), ((A s)ᴴ * B s) *ᵥ x = -x → x = 0) :
    ∃ N : Stack (Fin 1) n n ℝ, M = cplx N ∧ UniqueMean OnSO Eq IsSODist A B N := by
  obtain ⟨N, rfl, h⟩ := C166_special_orthogonal_unique hA hB hM hne
  have e : ∀ {X Y : Stack (Fin 1) n n ℝ} {d : ℝ}, OnSO X → OnSO Y →
      (IsSODist X Y d ↔ IsGDist (cplx X) (cplx Y) d) := fun hX hY => single_dist hX.1 hY.1 _
  refine ⟨N, rfl, ⟨h.on, fun d hd => ?_, fun x hx d₁ d₂ e₁ e₂ h1 h2 h3 h4 => ?_⟩,
    fun x hx d₁ d₂ e₁ e₂ h1 h2 h3 h4 => ?_⟩
  · exact (h.half d ((e hA hB).1 hd)).imp (e hA h.on).2 (e h.on hB).2
  · exact h.least x hx d₁ d₂ e₁ e₂ ((e hA h.on).1 h1) ((e h.on hB).1 h2) ((e hA hx).1 h3)
      ((e hx hB).1 h4)
  · exact h.unique x hx d₁ d₂ e₁ e₂ ((e hA h.on).1 h1) ((e h.on hB).1 h2) ((e hA hx).1 h3)
      ((e hx hB).1 h4)

/-- **C166**, stacks of rotations, with the distances as computed: the mean is half way.  Missing:
other points, which can have the same sum of squared distances
(`C119_special_orthogonal_negation`). -/
theorem C166_so_stack_partial {A B : Stack (Fin (k + 1)) n n ℝ} {M : Stack (Fin (k + 1)) n n ℂ}
    (hA : OnSO A) (hB : OnSO B) (hM : IsGPairMean (cplx A) (cplx B) M)
    (hne : ∀ s (x : n → ℝ), ((A s)ᴴ * B s) *ᵥ x = -x → x = 0) :
    ∃ N : Stack (Fin (k + 1)) n n ℝ, M = cplx N ∧ OnSO N ∧
      ∀ d, IsSODist A B d → IsSODist A N (d / 2) ∧ IsSODist N B (d / 2) := by
  have hAc := onUnitary_cplx hA.1
  have hBc := onUnitary_cplx hB.1
  obtain ⟨V, hV, hMV⟩ := id hM
  obtain ⟨h1, h2⟩ := C97_so_partial hA.1 hB.1 hV
  obtain ⟨W, rfl⟩ := h1.2 hne
  obtain ⟨hlie, hW⟩ := h2 W rfl
  have hN : M = cplx (gExp A ((1 / 2 : ℝ) • W)) := by
    rw [hMV]
    funext s
    change (A s).map Complex.ofReal * NormedSpace.exp ((1 / 2 : ℝ) • (W s).map Complex.ofReal) =
      (A s * NormedSpace.exp ((1 / 2 : ℝ) • W s)).map Complex.ofReal
    rw [map_mul_real, ← exp_map_real]
    congr 2
    ext i j
    simp
  have hNo : OnSO (gExp A ((1 / 2 : ℝ) • W)) := C96_exp_so hA (inLie_subspace.smul _ hlie)
  have hmap : ∀ s, (((1 / 2 : ℝ) • W s).map Complex.ofReal) =
      (1 / 2 : ℝ) • (W s).map Complex.ofReal := fun s => by
    ext i j
    simp
  have hlog : ∀ s, IsLogm ((NormedSpace.exp ((1 / 2 : ℝ) • W s)).map Complex.ofReal)
      (((1 / 2 : ℝ) • W s).map Complex.ofReal) := fun s => by
    rw [← exp_map_real, hmap]
    exact ((isGLog_iff hAc hBc).1 hV s).half
  have hAN : ∀ s, (A s)ᴴ * gExp A ((1 / 2 : ℝ) • W) s = NormedSpace.exp ((1 / 2 : ℝ) • W s) :=
    fun s => by
      change (A s)ᴴ * (A s * NormedSpace.exp ((1 / 2 : ℝ) • W s)) = _
      rw [← Matrix.mul_assoc, hA.1 s, Matrix.one_mul]
  have hNB : ∀ s, (gExp A ((1 / 2 : ℝ) • W) s)ᴴ * B s = NormedSpace.exp ((1 / 2 : ℝ) • W s) :=
    fun s => by
      have hBs : B s = gExp A ((1 / 2 : ℝ) • W) s * NormedSpace.exp ((1 / 2 : ℝ) • W s) := by
        conv_lhs => rw [← hW]
        change A s * NormedSpace.exp (W s) = A s * NormedSpace.exp ((1 / 2 : ℝ) • W s) * _
        rw [Matrix.mul_assoc, ← exp_add_of_commute _ _ (Commute.refl _), ← add_smul]
        norm_num
      rw [hBs, ← Matrix.mul_assoc, hNo.1 s, Matrix.one_mul]
  have e1 : ∀ s (v : n → ℝ), ((A s)ᴴ * gExp A ((1 / 2 : ℝ) • W) s) *ᵥ v = -v → v = 0 := fun s =>
    (logm_real_iff (quot_orth hA.1 hNo.1 s) (by rw [hAN]; exact hlog s)).1 ⟨_, rfl⟩
  have e2 : ∀ s (v : n → ℝ), ((gExp A ((1 / 2 : ℝ) • W) s)ᴴ * B s) *ᵥ v = -v → v = 0 := fun s =>
    (logm_real_iff (quot_orth hNo.1 hB.1 s) (by rw [hNB]; exact hlog s)).1 ⟨_, rfl⟩
  refine ⟨_, hN, hNo, fun d hd => ?_⟩
  have h3 := (C97_pair_mean hAc hBc).2 M d hM ((C97_so_stack_dist hA.1 hB.1 (.inr hne) d).1 hd)
  rw [hN] at h3
  exact ⟨(C97_so_stack_dist hA.1 hNo.1 (.inr e1) _).2 h3.2.1,
    (C97_so_stack_dist hNo.1 hB.1 (.inr e2) _).2 h3.2.2⟩

private theorem isLogm_one : IsLogm (1 : Matrix n n ℂ) 0 := by
  refine ⟨NormedSpace.exp_zero, fun μ v hv he => ?_⟩
  rw [Matrix.zero_mulVec] at he
  rw [(smul_eq_zero.1 he.symm).resolve_right hv, Complex.zero_im]
  exact ⟨by linarith [Real.pi_pos], Real.pi_pos.le⟩

private theorem isLogm_neg_one : IsLogm (-1 : Matrix n n ℂ) (((Real.pi : ℂ) * Complex.I) • 1) := by
  refine ⟨by rw [exp_smul_one, Complex.exp_pi_mul_I, neg_one_smul], fun μ v hv he => ?_⟩
  rw [Matrix.smul_mulVec, one_mulVec] at he
  have h3 : ((Real.pi : ℂ) * Complex.I - μ) • v = 0 := by rw [sub_smul, he, sub_self]
  rw [← sub_eq_zero.mp ((smul_eq_zero.mp h3).resolve_right hv)]
  simp
  linarith [Real.pi_pos]

/-- **C119** is false for every stack of two or more rotations of the plane: `dist` vanishes between
the identities and the stack in which the second one is replaced by the half turn, in both orders. -/
theorem C119_special_orthogonal_negation (k : ℕ) :
    ∃ A B : Stack (Fin (k + 2)) (Fin 2) (Fin 2) ℝ, OnSO A ∧ OnSO B ∧ A ≠ B ∧ IsSODist A B 0 ∧
      IsSODist B A 0 := by
  set A : Stack (Fin (k + 2)) (Fin 2) (Fin 2) ℝ := fun _ => 1 with hA
  set B : Stack (Fin (k + 2)) (Fin 2) (Fin 2) ℝ := fun s => if s = 1 then -1 else 1 with hB
  set L : Stack (Fin (k + 2)) (Fin 2) (Fin 2) ℂ :=
    fun s => if s = 1 then ((Real.pi : ℂ) * Complex.I) • 1 else 0 with hL
  have hBs : ∀ s, (B s)ᴴ = B s := fun s => by
    simp only [hB]; split <;> simp
  have hlog : ∀ s, IsLogm ((B s).map Complex.ofReal) (L s) := fun s => by
    simp only [hB, hL]
    split
    · have e : ((-1 : Matrix (Fin 2) (Fin 2) ℝ)).map Complex.ofReal = -1 := by
        ext i j
        fin_cases i <;> fin_cases j <;> simp
      rw [e]
      exact isLogm_neg_one
    · rw [Matrix.map_one _ Complex.ofReal_zero Complex.ofReal_one]
      exact isLogm_one
  have hst : multiskewh (storeStack L) = 0 := by
    have h1 : storeStack L = 0 := by
      unfold storeStack
      rw [if_pos]
      · funext s
        ext i j
        simp only [hL]
        split
        · by_cases hij : i = j <;> simp [hij]
        · simp
      · intro i j
        simp [hL]
    rw [h1]
    funext s
    rw [multiskewh_apply, skewPart_of_skew]
    simp
  have hn : ∀ X : Stack (Fin (k + 2)) (Fin 2) (Fin 2) ℝ,
      (0 : ℝ) = gNorm (fun s => (X s).map Complex.ofReal)
        (0 : Stack (Fin (k + 2)) (Fin 2) (Fin 2) ℂ) := fun X => by
    rw [eq_comm, gNorm, stackNorm_eq_zero]
  refine ⟨A, B, ⟨fun s => by simp [hA], fun s => by simp [hA]⟩, ⟨fun s => ?_, fun s => ?_⟩,
    fun h => ?_, ⟨0, ⟨L, fun s => ?_, hst.symm⟩, hn A⟩, 0, ⟨L, fun s => ?_, hst.symm⟩, hn B⟩
  · simp only [hB]; split <;> simp
  · simp only [hB]; split <;> simp [Matrix.det_neg]
  · have := congrFun (congrFun (congrFun h 1) 0) 0
    simp [hA, hB] at this
    norm_num at this
  · have e : multiprod (multihconj A) B s = B s := by
      change (A s)ᴴ * B s = B s
      simp [hA]
    rw [e]; exact hlog s
  · have e : multiprod (multihconj B) A s = B s := by
      change (B s)ᴴ * A s = B s
      rw [hBs]
      simp [hA]
    rw [e]; exact hlog s

/-- The hypotheses of `C166_so_stack_partial` are met by the identities and a stack of the identity
and the quarter turn. -/
example : OnSO (fun _ : Fin 2 => (1 : Matrix (Fin 2) (Fin 2) ℝ)) ∧
    OnSO (![1, !![0, -1; 1, 0]] : Stack (Fin 2) (Fin 2) (Fin 2) ℝ) ∧
    (∀ (s : Fin 2) (x : Fin 2 → ℝ), ((1 : Matrix (Fin 2) (Fin 2) ℝ)ᴴ *
      (![1, !![0, -1; 1, 0]] : Stack (Fin 2) (Fin 2) (Fin 2) ℝ) s) *ᵥ x = -x → x = 0) ∧
    ∃ M, IsGPairMean (cplx fun _ : Fin 2 => (1 : Matrix (Fin 2) (Fin 2) ℝ))
      (cplx (![1, !![0, -1; 1, 0]] : Stack (Fin 2) (Fin 2) (Fin 2) ℝ)) M := by
  have h1 : OnSO (fun _ : Fin 2 => (1 : Matrix (Fin 2) (Fin 2) ℝ)) :=
    ⟨fun s => by simp, fun s => by simp⟩
  have h2 : OnSO (![1, !![0, -1; 1, 0]] : Stack (Fin 2) (Fin 2) (Fin 2) ℝ) := by
    refine ⟨fun s => ?_, fun s => ?_⟩
    · fin_cases s
      · simp
      · ext i j
        fin_cases i <;> fin_cases j <;> simp [Matrix.mul_apply, Fin.sum_univ_two]
    · fin_cases s <;> simp [Matrix.det_fin_two]
  refine ⟨h1, h2, fun s x hx => ?_, ?_⟩
  · rw [conjTranspose_one, Matrix.one_mul] at hx
    fin_cases s
    · simp only [Fin.zero_eta, Matrix.cons_val_zero, one_mulVec] at hx
      exact self_eq_neg.1 hx
    · have e0 := congrFun hx 0
      have e1 := congrFun hx 1
      simp [mulVec, dotProduct, Fin.sum_univ_two] at e0 e1
      ext i
      fin_cases i
      · change x 0 = 0
        linarith
      · change x 1 = 0
        linarith
  · exact (C97_pair_mean (onUnitary_cplx h1.1) (onUnitary_cplx h2.1)).1.exists

end Verif.Geo
