/-
C126 (continued): accuracy of the quadratic model on the matrix manifolds whose points are stacks:
positive definite matrices, Stiefel, Grassmann and the special orthogonal and unitary groups.
-/
import Verif.Geo.Lemmas.PolarJet
import Verif.Geo.Props.SecondOrder

namespace Verif.Geo
open scoped BigOperators Topology ComplexOrder
open Matrix Filter Asymptotics

variable {κ n p : Type*} {𝕜 : Type*} [RCLike 𝕜]

theorem matJet_exp [Fintype n] [DecidableEq n] (A : Matrix n n 𝕜) :
    MatJet2 (fun t : ℝ => NormedSpace.exp (t • A)) 1 A (A * A) := by
  have h := MatJet2.of_deriv (fun t => matDeriv_exp A t)
    ((matDeriv_exp A 0).mul (MatDeriv.const A 0))
  simpa using h

/-! ### Positive definite matrices -/

/-- **C126** (positive definite matrices, as factor of a product). -/
theorem C126_factor_positive_definite [Fintype κ] [Fintype n] [DecidableEq n] {P V : Stack κ n n 𝕜}
    (hP : PDPoint P) (hV : HermStack V) (G H : Stack κ n n 𝕜) :
    SecondOrder StackJet2 stackDot (fun t : ℝ => pdExp P (t • V)) P V G H
        (pdInner P (pdE2rg P G) V) (pdInner P (pdE2rh P G H V) V) ∧
      SecondOrder StackJet2 stackDot (fun t : ℝ => pdRetract P (t • V)) P V G H
        (pdInner P (pdE2rg P G) V) (pdInner P (pdE2rh P G H V) V) := by
  have hu := fun k => (hP k).isUnit
  set A : Stack κ n n 𝕜 := fun k => V k * ((P k)⁻¹ * V k) with hA
  have h0 : pdInner P (pdE2rg P G) V = stackDot G V := (C84_gradient P G hP).2 V hV
  have h1 : pdInner P (pdE2rh P G H V) V = stackDot H V + stackDot G A := by
    have hW : HermStack A := by
      rw [hermStack_iff]
      intro k
      rw [conjTranspose_mul, conjTranspose_mul, hV.k, conjTranspose_nonsing_inv,
        (hP k).isHermitian.eq, Matrix.mul_assoc]
    have h3 : stackDot G A = stackDot (multiherm G) A :=
      (C50_projections.2.2.1.represents G hW).symm
    have h4 : stackDot (multiherm G) A =
        ∑ k, RCLike.re ((P k)⁻¹ * V k * ((P k)⁻¹ * V k) * multiherm G k * P k).trace := by
      rw [stackDot_eq]
      refine Finset.sum_congr rfl fun k _ => ?_
      rw [trDot, (multiherm_mem G).k k, trace_mul_comm]
      have e : ((P k)⁻¹ * V k * ((P k)⁻¹ * V k) * multiherm G k * P k).trace =
          (V k * ((P k)⁻¹ * V k) * multiherm G k).trace := by
        rw [trace_mul_comm]
        calc (P k * ((P k)⁻¹ * V k * ((P k)⁻¹ * V k) * multiherm G k)).trace =
            (P k * (P k)⁻¹ * (V k * ((P k)⁻¹ * V k) * multiherm G k)).trace := by
              simp only [Matrix.mul_assoc]
          _ = _ := by rw [mul_inv' (hu k), Matrix.one_mul]
      rw [e]
    have h5 : pdInner P (pdE2rh P G H V) V = pdInner P V (pdE2rh P G H V) := by
      rw [pdInner_metric (pdE2rh_herm hP G H V), pdInner_metric hV, (pdMetric_inner hP).symm]
    rw [h5, pdInner_hess hP G H V V hV, h3, h4, stackDot_comm]
  refine ⟨⟨A, fun k => ?_, h0, h1⟩, ⟨A, fun k => ?_, h0, h1⟩⟩
  · have h := (MatJet2.const (P k)).mul (matJet_exp ((P k)⁻¹ * V k))
    refine (h.congr fun t => ?_).congr_jet ?_ ?_ ?_
    · change pdExp P (t • V) k = _
      rw [pdExp_apply]
      simp only [Pi.smul_apply, Matrix.mul_smul]
    · simp
    · rw [Matrix.zero_mul, zero_add, ← Matrix.mul_assoc, mul_inv' (hu k), Matrix.one_mul]
    · rw [Matrix.zero_mul, Matrix.zero_mul, smul_zero, zero_add, zero_add,
        ← Matrix.mul_assoc (P k), ← Matrix.mul_assoc (P k), mul_inv' (hu k), Matrix.one_mul]
  · intro i j
    have := Jet2.quadratic (P k i j) (V k i j) (A k i j)
    refine this.congr (Eventually.of_forall fun t => ?_)
    change pdRetract P (t • V) k i j = _
    rw [pdRetract_apply hP (hermStack_subspace.smul t hV)]
    simp only [Pi.smul_apply, Matrix.smul_mul, Matrix.mul_smul, smul_smul, Matrix.add_apply,
      Matrix.smul_apply, hA]
    congr 2
    ring

/-- **C126** (positive definite matrices). -/
theorem C126_positive_definite [Fintype κ] [Fintype n] [DecidableEq n] {f : Stack κ n n 𝕜 → ℝ}
    {P G V H : Stack κ n n 𝕜} (hP : PDPoint P) (hV : HermStack V) (hf : ETaylorStack f P G V H) :
    Jet2 (fun t : ℝ => f (pdExp P (t • V))) (f P) (pdInner P (pdE2rg P G) V)
        (pdInner P (pdE2rh P G H V) V) ∧
      Jet2 (fun t : ℝ => f (pdRetract P (t • V))) (f P) (pdInner P (pdE2rg P G) V)
        (pdInner P (pdE2rh P G H V) V) :=
  ⟨(C126_factor_positive_definite hP hV G H).1.stack hf,
    (C126_factor_positive_definite hP hV G H).2.stack hf⟩

/-! ### Stiefel -/

theorem stackDot_polar_acc [Fintype κ] [Fintype n] [Fintype p] (X G V : Stack κ n p 𝕜) :
    stackDot G (fun k => -(X k * ((V k)ᴴ * V k))) =
      -∑ k, trDot ((X k)ᴴ * G k) ((V k)ᴴ * V k) := by
  rw [stackDot_eq, ← Finset.sum_neg_distrib]
  refine Finset.sum_congr rfl fun k _ => ?_
  rw [trDot_inner.neg_right, trDot_mul_left, conjTranspose_conjTranspose]

theorem stiefel_hess_form [Fintype κ] [Fintype n] [Fintype p] [DecidableEq p]
    {X V : Stack κ n p ℝ} (hX : OnStiefel X) (hV : StiefelTangent X V) (G H : Stack κ n p ℝ) :
    stInner X (stE2rh X G H V) V =
      stackDot H V + stackDot G fun k => -(X k * ((V k)ᴴ * V k)) := by
  have e : stE2rh X G H V =
      stProj X H + stProj X (fun k => -(V k * symPart ((X k)ᵀ * G k))) :=
    funext fun k => stE2rh_eq hX hV G H k
  have hP := C66_projection X hX
  have hI := (C66_metric X V).1
  rw [e, hI.add_left, hP.represents H hV, hP.represents _ hV, stInner_eq, stInner_eq,
    stackDot_polar_acc]
  congr 1
  rw [stackDot_eq, ← Finset.sum_neg_distrib]
  refine Finset.sum_congr rfl fun k _ => ?_
  rw [trDot_inner.neg_left]
  congr 1
  have hVV : ((V k)ᴴ * V k)ᵀ = (V k)ᴴ * V k := by
    rw [conjTranspose_eq_transpose_of_trivial, transpose_mul, transpose_transpose]
  obtain ⟨M, hM⟩ : ∃ M, M = (X k)ᵀ * G k := ⟨_, rfl⟩
  have h1 : trDot Mᵀ ((V k)ᴴ * V k) = trDot M ((V k)ᴴ * V k) := by
    conv_lhs => rw [← hVV]
    rw [trDot_eq_sum, trDot_eq_sum, Finset.sum_comm]
    rfl
  rw [trDot_mul_left, conjTranspose_eq_transpose_of_trivial (X k), ← hM, symPart,
    trDot_inner.smul_left, trDot_inner.add_left, h1]
  ring

/-- **C126** (Stiefel manifold, along `exp`, as factor of a product). -/
theorem C126_factor_stiefel [Fintype κ] [Fintype n] [Fintype p] [DecidableEq p]
    {X V : Stack κ n p ℝ} (hX : OnStiefel X) (hV : StiefelTangent X V) (G H : Stack κ n p ℝ) :
    SecondOrder StackJet2 stackDot (fun t : ℝ => stExp X (t • V)) X V G H
      (stInner X (stE2rg X G) V) (stInner X (stE2rh X G H V) V) := by
  have h0 : stInner X (stE2rg X G) V = stackDot G V :=
    ((C66_projection X hX).represents G hV).trans (stInner_eq X G V)
  refine ⟨_, fun k => ?_, h0, stiefel_hess_form hX hV G H⟩
  set A := (X k)ᵀ * V k
  set B := fromBlocks A (-((V k)ᵀ * V k)) 1 A with hB
  have h1 := (MatJet2.const (fromCols (X k) (V k))).mul
    (((matJet_exp B).mul (MatJet2.const (colSel p))).mul (matJet_exp (-A)))
  refine (h1.congr fun t => stExp_smul X V t k).congr_jet ?_ ?_ ?_
  · rw [colSel, Matrix.one_mul, Matrix.mul_one, fromCols_mul_fromRows]
    simp
  · rw [hB, colSel]
    simp only [Matrix.one_mul, Matrix.mul_one, Matrix.zero_mul,
      Matrix.mul_zero, add_zero, zero_add, Matrix.mul_add]
    rw [fromBlocks_mul_fromRows, ← Matrix.mul_assoc, fromCols_mul_fromRows,
      fromCols_mul_fromRows]
    simp
  · rw [hB, colSel]
    simp only [Matrix.one_mul, Matrix.mul_one, Matrix.zero_mul, smul_zero,
      Matrix.mul_zero, add_zero, zero_add, Matrix.mul_add]
    rw [Matrix.mul_assoc (fromBlocks _ _ _ _), fromBlocks_mul_fromRows, fromBlocks_mul_fromRows]
    simp only [fromRows_mul, ← Matrix.mul_assoc, Matrix.mul_smul, fromCols_mul_fromRows]
    simp only [Matrix.mul_one, Matrix.one_mul, Matrix.mul_zero, Matrix.zero_mul, add_zero,
      Matrix.mul_add, Matrix.mul_neg, Matrix.neg_mul, neg_neg, Matrix.mul_assoc,
      conjTranspose_eq_transpose_of_trivial]
    module

/-- **C126** (Stiefel manifold, along `exp`). -/
theorem C126_stiefel [Fintype κ] [Fintype n] [Fintype p] [DecidableEq p] {f : Stack κ n p ℝ → ℝ}
    {X G V H : Stack κ n p ℝ} (hX : OnStiefel X) (hV : StiefelTangent X V)
    (hf : ETaylorStack f X G V H) :
    Jet2 (fun t : ℝ => f (stExp X (t • V))) (f X) (stInner X (stE2rg X G) V)
      (stInner X (stE2rh X G H V) V) :=
  (C126_factor_stiefel hX hV G H).stack hf

/-- **C126** (Stiefel manifold, along the polar retraction, as factor of a product). -/
theorem C126_factor_stiefel_polar [Fintype κ] [Fintype n] {p : ℕ} {X V : Stack κ n (Fin p) ℝ}
    (hX : OnStiefel X) (hV : StiefelTangent X V) (G H : Stack κ n (Fin p) ℝ)
    {u : ℝ → Stack κ n (Fin p) ℝ} {s : ℝ → κ → Fin p → ℝ} {vt : ℝ → Stack κ (Fin p) (Fin p) ℝ}
    (h : ∀ t k, IsSVD (stRetractArg X (t • V) k) (u t k) (s t k) (vt t k)) :
    SecondOrder StackJet2 stackDot (fun t : ℝ => stRetractPolar (u t) (vt t)) X V G H
      (stInner X (stE2rg X G) V) (stInner X (stE2rh X G H V) V) :=
  ⟨_, fun k => polar_jet (fun t => stRetractArg_gram hX ((stiefelTangent_subspace X).smul t hV) k)
      fun t => h t k,
    ((C66_projection X hX).represents G hV).trans (stInner_eq X G V), stiefel_hess_form hX hV G H⟩

/-- **C126** (Stiefel manifold, along the polar retraction). -/
theorem C126_stiefel_polar [Fintype κ] [Fintype n] {p : ℕ} {f : Stack κ n (Fin p) ℝ → ℝ}
    {X G V H : Stack κ n (Fin p) ℝ} (hX : OnStiefel X) (hV : StiefelTangent X V)
    (hf : ETaylorStack f X G V H) {u : ℝ → Stack κ n (Fin p) ℝ} {s : ℝ → κ → Fin p → ℝ}
    {vt : ℝ → Stack κ (Fin p) (Fin p) ℝ}
    (h : ∀ t k, IsSVD (stRetractArg X (t • V) k) (u t k) (s t k) (vt t k)) :
    Jet2 (fun t : ℝ => f (stRetractPolar (u t) (vt t))) (f X) (stInner X (stE2rg X G) V)
      (stInner X (stE2rh X G H V) V) :=
  (C126_factor_stiefel_polar hX hV G H h).stack hf

/-! ### Grassmann -/

theorem grassmann_hess_form [Fintype κ] [Fintype n] [Fintype p] [DecidableEq p]
    {X V : Stack κ n p 𝕜} (hX : Orthonormal' X) (hV : GrHorizontal X V) (G H : Stack κ n p 𝕜) :
    cgrInner X (cgrE2rh X G H V) V =
      stackDot H V + stackDot G fun k => -(X k * ((V k)ᴴ * V k)) := by
  have e : cgrE2rh X G H V = cgrProj X H - fun k => V k * ((X k)ᴴ * G k) := rfl
  have hI := (C70_metric X V).1
  have h1 : cgrInner X H V = stackDot H V := rfl
  rw [e, hI.sub_left, (C70_projection X hX).represents H hV, stackDot_polar_acc, sub_eq_add_neg, h1]
  congr 2
  change stackDot (fun k => V k * ((X k)ᴴ * G k)) V = _
  rw [stackDot_eq]
  refine Finset.sum_congr rfl fun k _ => ?_
  rw [trDot_mul_left]

/-- **C126** (Grassmann manifolds, real and complex, as factors of a product). -/
theorem C126_factor_grassmann [Fintype κ] [Fintype n] {p : ℕ} {X V : Stack κ n (Fin p) 𝕜}
    (hX : Orthonormal' X) (hV : GrHorizontal X V) (G H : Stack κ n (Fin p) 𝕜) :
    (∀ E : ℝ → Stack κ n (Fin p) 𝕜, (∀ t, IsGrExp X (t • V) (E t)) →
      SecondOrder StackJet2 stackDot E X V G H (cgrInner X (cgrProj X G) V)
        (cgrInner X (cgrE2rh X G H V) V)) ∧
    ∀ E : ℝ → Stack κ n (Fin p) 𝕜, (∀ t, IsGrRetraction X (t • V) (E t)) →
      SecondOrder StackJet2 stackDot E X V G H (cgrInner X (cgrProj X G) V)
        (cgrInner X (cgrE2rh X G H V) V) := by
  have h0 : cgrInner X (cgrProj X G) V = stackDot G V := (C70_projection X hX).represents G hV
  have h1 := grassmann_hess_form hX hV G H
  constructor
  · intro E hE
    have hE' := hE
    choose u s vt q r hs hq he using hE'
    exact ⟨_, fun k => grassmann_jet (fun t => hs t k) fun t =>
      isGrExp_eq hX ((grHorizontal_subspace X).smul t hV) (hE t) k (hs t k).any, h0, h1⟩
  · intro E hE
    choose u s vt hs he using hE
    obtain rfl : E = fun t => grRetraction (u t) (vt t) := funext he
    exact ⟨_, fun k => polar_jet
      (fun t => grRetractArg_gram hX ((grHorizontal_subspace X).smul t hV) k) fun t => hs t k, h0, h1⟩

/-- **C126** (Grassmann manifolds, real and complex). -/
theorem C126_grassmann [Fintype κ] [Fintype n] {p : ℕ} {f : Stack κ n (Fin p) 𝕜 → ℝ}
    {X G V H : Stack κ n (Fin p) 𝕜} (hX : Orthonormal' X) (hV : GrHorizontal X V)
    (hf : ETaylorStack f X G V H) :
    (∀ E : ℝ → Stack κ n (Fin p) 𝕜, (∀ t, IsGrExp X (t • V) (E t)) →
      Jet2 (fun t => f (E t)) (f X) (cgrInner X (cgrProj X G) V)
        (cgrInner X (cgrE2rh X G H V) V)) ∧
    ∀ E : ℝ → Stack κ n (Fin p) 𝕜, (∀ t, IsGrRetraction X (t • V) (E t)) →
      Jet2 (fun t => f (E t)) (f X) (cgrInner X (cgrProj X G) V)
        (cgrInner X (cgrE2rh X G H V) V) :=
  ⟨fun E hE => ((C126_factor_grassmann hX hV G H).1 E hE).stack hf,
    fun E hE => ((C126_factor_grassmann hX hV G H).2 E hE).stack hf⟩

/-! ### Groups -/

theorem group_hess_form [Fintype κ] [Fintype n] (X G H : Stack κ n n 𝕜) {V : Stack κ n n 𝕜}
    (hV : InLie V) : RCLike.re (gInner X (gE2rh X G H V) V) =
      stackDot H (gEmbed X V) + stackDot G fun k => X k * (V k * V k) := by
  change stackDot (gE2rh X G H V) V = _
  rw [stackDot_eq, stackDot_eq, stackDot_eq, ← Finset.sum_add_distrib]
  refine Finset.sum_congr rfl fun k => fun _ => ?_
  have hVV : (V k * V k)ᴴ = V k * V k := by
    rw [conjTranspose_mul, hV k, Matrix.neg_mul, Matrix.mul_neg, neg_neg]
  have e1 : trDot (G k) (X k * (V k * V k)) = trDot (hermPart ((X k)ᴴ * G k)) (V k * V k) := by
    have : trDot (G k) (X k * (V k * V k)) = trDot ((X k)ᴴ * G k) (V k * V k) := by
      rw [trDot_mul_left, conjTranspose_conjTranspose]
    rw [this]
    conv_lhs => rw [← skewPart_add_hermPart ((X k)ᴴ * G k), trDot_inner.add_left,
      trDot_inner.symm (skewPart _), trDot_herm_skew hVV (skewPart_conjTranspose _), zero_add]
  have e2 : trDot (V k * hermPart ((X k)ᴴ * G k)) (V k) =
      -trDot (hermPart ((X k)ᴴ * G k)) (V k * V k) := by
    rw [trDot_mul_left, hV k, Matrix.neg_mul, trDot_inner.neg_right]
  have e3 : trDot (H k) (gEmbed X V k) = trDot ((X k)ᴴ * H k) (V k) := by
    change trDot (H k) (X k * V k) = _
    rw [trDot_mul_left, conjTranspose_conjTranspose]
  rw [e1, gE2rh_apply, trDot_skewPart (hV k), trDot_inner.sub_left, e2, e3]
  ring

/-- C126: the second order term of the quadratic model is right on both groups, along `exp` and
along the polar retraction.  The first order term is the derivative of the cost, which the gradient
of the unitary group does not represent (`C110`). -/
theorem C126_group_partial [Fintype κ] {p : ℕ} {f : Stack κ (Fin p) (Fin p) 𝕜 → ℝ}
    {X G V H : Stack κ (Fin p) (Fin p) 𝕜} (hX : OnUnitary X) (hV : InLie V)
    (hf : ETaylorStack f X G (gEmbed X V) H) :
    Jet2 (fun t : ℝ => f (gExp X (t • V))) (f X) (stackDot G (gEmbed X V))
        (RCLike.re (gInner X (gE2rh X G H V) V)) ∧
      ∀ (u vt : ℝ → Stack κ (Fin p) (Fin p) 𝕜) (s : ℝ → κ → Fin p → ℝ),
        (∀ t k, IsSVD (gRetractArg X (t • V) k) (u t k) (s t k) (vt t k)) →
        Jet2 (fun t : ℝ => f (gRetractPolar (u t) (vt t))) (f X) (stackDot G (gEmbed X V))
          (RCLike.re (gInner X (gE2rh X G H V) V)) := by
  rw [group_hess_form X G H hV]
  refine ⟨hf.apply fun k => ?_, fun u vt s h => hf.apply fun k => ?_⟩
  · have h := (MatJet2.const (X k)).mul (matJet_exp (V k))
    exact h.congr_jet (by simp) (by simp [gEmbed, multiprod]) (by simp)
  · have e : ∀ t : ℝ, gRetractArg X (t • V) k = X k + t • (X k * V k) := fun t => by
      change X k + X k * (t • V k) = _
      rw [Matrix.mul_smul]
    have hs : ∀ t : ℝ, IsSVD (X k + t • (X k * V k)) (u t k) (s t k) (vt t k) := fun t => by
      rw [← e t]; exact h t k
    have hXV : (X k * V k)ᴴ * (X k * V k) = -(V k * V k) := by
      rw [conjTranspose_mul, Matrix.mul_assoc, ← Matrix.mul_assoc _ (X k), hX k, Matrix.one_mul, hV k,
        Matrix.neg_mul]
    refine (polar_jet (fun t => ?_) hs).congr_jet rfl rfl ?_
    · have := gRetractArg_gram hX (inLie_subspace.smul t hV) k
      rw [e t] at this
      rw [this, conjTranspose_smul, Matrix.smul_mul, Matrix.mul_smul, hXV]
      simp [hV k]
    · rw [hXV, Matrix.mul_neg, neg_neg]

/-- **C126** (special orthogonal group). -/
theorem C126_special_orthogonal [Fintype κ] {p : ℕ} {f : Stack κ (Fin p) (Fin p) ℝ → ℝ}
    {X G V H : Stack κ (Fin p) (Fin p) ℝ} (hX : OnUnitary X) (hV : InLie V)
    (hf : ETaylorStack f X G (gEmbed X V) H) :
    Jet2 (fun t : ℝ => f (gExp X (t • V))) (f X) (gInner X (gE2rg X G) V)
        (gInner X (gE2rh X G H V) V) ∧
      ∀ (u vt : ℝ → Stack κ (Fin p) (Fin p) ℝ) (s : ℝ → κ → Fin p → ℝ),
        (∀ t k, IsSVD (gRetractArg X (t • V) k) (u t k) (s t k) (vt t k)) →
        Jet2 (fun t : ℝ => f (gRetractPolar (u t) (vt t))) (f X) (gInner X (gE2rg X G) V)
          (gInner X (gE2rh X G H V) V) := by
  have h0 : gInner X (gE2rg X G) V = stackDot G (gEmbed X V) := by
    rw [(C95_so_gradient X G).2 V hV, stackDot_eq]
    refine Finset.sum_congr rfl fun k _ => ?_
    rw [trDot_eq_sum]
    simp
  rw [h0]
  exact C126_group_partial hX hV hf

/-! ### The QR retraction

The QR retraction is the default of Stiefel and of the groups.  It agrees with the geodesic only to
first order, so the quadratic model is accurate along it where the gradient vanishes, and not in
general. -/

theorem trDot_upperTwice {p : ℕ} {M S : Matrix (Fin p) (Fin p) 𝕜} (hM : Mᴴ = M) (hS : Sᴴ = S) :
    trDot M (upperTwice S) = trDot M S := by
  have hre : ∀ i j, RCLike.re (star (M i j) * S i j) = RCLike.re (star (M j i) * S j i) := by
    intro i j
    have h1 : M j i = star (M i j) := by conv_lhs => rw [← hM, conjTranspose_apply]
    have h2 : S j i = star (S i j) := by conv_lhs => rw [← hS, conjTranspose_apply]
    rw [h1, h2, ← star_mul', RCLike.star_def, RCLike.conj_re]
  have hsw : ∑ i, ∑ j, (if i < j then RCLike.re (star (M i j) * S i j) else 0) =
      ∑ i, ∑ j, (if j < i then RCLike.re (star (M i j) * S i j) else 0) := by
    rw [Finset.sum_comm]
    refine Finset.sum_congr rfl fun i _ => Finset.sum_congr rfl fun j _ => ?_
    rw [hre]
  have e1 : trDot M (upperTwice S) =
      ∑ i, ∑ j, (if i < j then RCLike.re (star (M i j) * S i j) else 0) +
        ∑ i, ∑ j, (if i < j then RCLike.re (star (M i j) * S i j) else 0) +
        ∑ i, ∑ j, (if i = j then RCLike.re (star (M i j) * S i j) else 0) := by
    rw [trDot_eq_sum]
    simp only [← Finset.sum_add_distrib]
    refine Finset.sum_congr rfl fun i _ => Finset.sum_congr rfl fun j _ => ?_
    rcases lt_trichotomy i j with h | h | h
    · simp only [upperTwice, of_apply, h, h.ne, if_true, if_false, add_zero]
      rw [two_mul, mul_add, map_add]
    · subst h
      simp [upperTwice]
    · simp [upperTwice, h.not_gt, h.ne']
  have e2 : trDot M S =
      ∑ i, ∑ j, (if i < j then RCLike.re (star (M i j) * S i j) else 0) +
        ∑ i, ∑ j, (if j < i then RCLike.re (star (M i j) * S i j) else 0) +
        ∑ i, ∑ j, (if i = j then RCLike.re (star (M i j) * S i j) else 0) := by
    rw [trDot_eq_sum]
    simp only [← Finset.sum_add_distrib]
    refine Finset.sum_congr rfl fun i _ => Finset.sum_congr rfl fun j _ => ?_
    rcases lt_trichotomy i j with h | h | h
    · simp [h, h.ne, h.not_gt]
    · subst h
      simp
    · simp [h, h.ne', h.not_gt]
  rw [e1, e2, hsw]

theorem stackDot_qr_acc [Fintype κ] [Fintype n] {p : ℕ} {X G V : Stack κ n (Fin p) 𝕜}
    (hG : ∀ k, ((X k)ᴴ * G k)ᴴ = (X k)ᴴ * G k) :
    stackDot G (fun k => -(X k * upperTwice ((V k)ᴴ * V k))) =
      stackDot G fun k => -(X k * ((V k)ᴴ * V k)) := by
  rw [stackDot_eq, stackDot_eq]
  refine Finset.sum_congr rfl fun k _ => ?_
  have key : ∀ B, trDot (G k) (X k * B) = trDot ((X k)ᴴ * G k) B := fun B => by
    rw [trDot_mul_left, conjTranspose_conjTranspose]
  have hS : ((V k)ᴴ * V k)ᴴ = (V k)ᴴ * V k := by
    rw [conjTranspose_mul, conjTranspose_conjTranspose]
  rw [trDot_inner.neg_right, trDot_inner.neg_right, key, key, trDot_upperTwice (hG k) hS]

/-- On Stiefel the gradient vanishes only where `Xᵀ G` is symmetric. -/
theorem stE2rg_zero_symm [Fintype n] [Fintype p] [DecidableEq p] {X G : Stack κ n p ℝ}
    (hX : OnStiefel X) (h : stE2rg X G = 0) (k : κ) : ((X k)ᴴ * G k)ᴴ = (X k)ᴴ * G k := by
  have h1 : G k - X k * symPart ((X k)ᵀ * G k) = 0 := congrFun h k
  have h2 := congrArg (fun M => (X k)ᵀ * M) h1
  simp only [Matrix.mul_sub, Matrix.mul_zero, ← Matrix.mul_assoc, onStiefel_iff.mp hX k,
    Matrix.one_mul] at h2
  rw [conjTranspose_eq_transpose_of_trivial, conjTranspose_eq_transpose_of_trivial,
    sub_eq_zero.mp h2, symPart_transpose]

/-- C126: along the QR retraction of Stiefel the quadratic model is accurate to second order at
critical points.  Missing: it is not at other points (`C126_qr_negation`). -/
theorem C126_stiefel_qr_partial [Fintype κ] [Fintype n] {p : ℕ} {f : Stack κ n (Fin p) ℝ → ℝ}
    {X G V H : Stack κ n (Fin p) ℝ} (hX : OnStiefel X) (hV : StiefelTangent X V)
    (hf : ETaylorStack f X G V H) (hG : stE2rg X G = 0) {q : ℝ → Stack κ n (Fin p) ℝ}
    {r : ℝ → Stack κ (Fin p) (Fin p) ℝ}
    (h : ∀ t k, IsQR (stRetractArg X (t • V) k) (q t k) (r t k)) :
    Jet2 (fun t : ℝ => f (stRetractQR (q t) (r t))) (f X) (stInner X (stE2rg X G) V)
      (stInner X (stE2rh X G H V) V) := by
  have h0 : stInner X (stE2rg X G) V = stackDot G V :=
    ((C66_projection X hX).represents G hV).trans (stInner_eq X G V)
  rw [h0, stiefel_hess_form hX hV, ← stackDot_qr_acc (stE2rg_zero_symm hX hG)]
  refine hf.apply fun k => ?_
  have hq := fun t => C51_factorisation le_rfl (h t k)
  exact qr_jet (fun t => stRetractArg_gram hX ((stiefelTangent_subspace X).smul t hV) k)
    (fun t => (hq t).1) fun t => (hq t).2

/-- C126: the same for the special orthogonal group. -/
theorem C126_special_orthogonal_qr_partial [Fintype κ] {p : ℕ}
    {f : Stack κ (Fin p) (Fin p) ℝ → ℝ} {X G V H : Stack κ (Fin p) (Fin p) ℝ} (hX : OnUnitary X)
    (hV : InLie V) (hf : ETaylorStack f X G (gEmbed X V) H) (hG : gE2rg X G = 0)
    {q r : ℝ → Stack κ (Fin p) (Fin p) ℝ}
    (h : ∀ t k, IsQR (gRetractArg X (t • V) k) (q t k) (r t k)) :
    Jet2 (fun t : ℝ => f (gRetractQR (q t) (r t))) (f X) (gInner X (gE2rg X G) V)
      (gInner X (gE2rh X G H V) V) := by
  have h0 : gInner X (gE2rg X G) V = stackDot G (gEmbed X V) := by
    rw [(C95_so_gradient X G).2 V hV, stackDot_eq]
    refine Finset.sum_congr rfl fun k _ => ?_
    rw [trDot_eq_sum]
    simp
  have hXV : ∀ k, (gEmbed X V k)ᴴ * gEmbed X V k = -(V k * V k) := fun k => by
    change (X k * V k)ᴴ * (X k * V k) = _
    rw [conjTranspose_mul, Matrix.mul_assoc, ← Matrix.mul_assoc _ (X k), hX k, Matrix.one_mul, hV k,
      Matrix.neg_mul]
  have hsym : ∀ k, ((X k)ᴴ * G k)ᴴ = (X k)ᴴ * G k := fun k => by
    have h1 : gProj X G k = 0 := congrFun hG k
    rw [gProj_real, skewPart] at h1
    have h2 := (smul_eq_zero.mp h1).resolve_left (by norm_num)
    exact (sub_eq_zero.mp h2).symm
  have h1 : gInner X (gE2rh X G H V) V =
      stackDot H (gEmbed X V) +
        stackDot G fun k => -(X k * upperTwice ((gEmbed X V k)ᴴ * gEmbed X V k)) := by
    rw [stackDot_qr_acc hsym]
    refine (group_hess_form X G H hV).trans ?_
    congr 2
    funext k
    rw [hXV, Matrix.mul_neg, neg_neg]
  rw [h0, h1]
  refine hf.apply fun k => ?_
  have e : ∀ t : ℝ, gRetractArg X (t • V) k = X k + t • gEmbed X V k := fun t => by
    change X k + X k * (t • V k) = X k + t • (X k * V k)
    rw [Matrix.mul_smul]
  have hq := fun t => C51_factorisation le_rfl (h t k)
  refine qr_jet (fun t => ?_) (fun t => by rw [← e t]; exact (hq t).1) fun t => (hq t).2
  have := gRetractArg_gram hX (inLie_subspace.smul t hV) k
  rw [e t] at this
  rw [this, conjTranspose_smul, Matrix.smul_mul, Matrix.mul_smul, hXV]
  rw [Pi.smul_apply, conjTranspose_smul, hV k, Matrix.smul_mul, Matrix.mul_smul, Matrix.neg_mul]

theorem ETaylorStack.linear [Fintype κ] {m n : Type*} [Fintype m] [Fintype n]
    (X G V : Stack κ m n 𝕜) : ETaylorStack (fun Y => stackDot G Y) X G V 0 := by
  intro c a hc
  have h := Jet2.sum (s := Finset.univ) fun (x : κ × m × n) _ =>
    ((Jet2.const (star (G x.1 x.2.1 x.2.2))).mul (hc x)).map (RCLike.reCLM (K := 𝕜))
  refine (h.congr (Eventually.of_forall fun t => ?_)).congr_jet ?_ ?_ ?_
  · simp only [stackDot, retensordot, map_sum]
    rfl
  · simp only [stackDot, retensordot, map_sum]
    rfl
  · simp
  · simp

/-- Counterexample point of the Stiefel manifold: the first two coordinate axes. -/
def negX : Stack (Fin 1) (Fin 3) (Fin 2) ℝ := fun _ => !![1, 0; 0, 1; 0, 0]

/-- Direction orthogonal to both columns. -/
def negV : Stack (Fin 1) (Fin 3) (Fin 2) ℝ := fun _ => !![0, 0; 0, 0; 1, 1]

/-- Gradient of the cost `Y ↦ Y₀₁`. -/
def negG : Stack (Fin 1) (Fin 3) (Fin 2) ℝ := fun _ => !![0, 1; 0, 0; 0, 0]

/-- **C126** fails for the default (QR) retraction of Stiefel: for the linear cost `Y ↦ Y₀₁` the
second order term of the cost along the retraction is not the quadratic form of the Hessian. -/
theorem C126_qr_negation : OnStiefel negX ∧ StiefelTangent negX negV ∧
    ETaylorStack (fun Y => stackDot negG Y) negX negG negV 0 ∧
    ∃ (q : ℝ → Stack (Fin 1) (Fin 3) (Fin 2) ℝ) (r : ℝ → Stack (Fin 1) (Fin 2) (Fin 2) ℝ),
      (∀ t k, IsQR (stRetractArg negX (t • negV) k) (q t k) (r t k)) ∧
      ¬ Jet2 (fun t : ℝ => stackDot negG (stRetractQR (q t) (r t))) (stackDot negG negX)
        (stInner negX (stE2rg negX negG) negV) (stInner negX (stE2rh negX negG 0 negV) negV) := by
  have hX : OnStiefel negX := by
    rw [onStiefel_iff]
    intro k
    ext i j
    fin_cases i <;> fin_cases j <;> simp [negX, mul_apply, Fin.sum_univ_succ]
  have hV : StiefelTangent negX negV := by
    rw [stiefelTangent_iff]
    intro k
    ext i j
    fin_cases i <;> fin_cases j <;> simp [negX, negV, mul_apply, Fin.sum_univ_succ]
  have hf := ETaylorStack.linear negX negG negV
  have hqr := fun (t : ℝ) k => exists_isQR (p := 2) (by simp) (stRetractArg negX (t • negV) k)
  choose q r h using hqr
  refine ⟨hX, hV, hf, q, r, h, fun hj => ?_⟩
  have hq := fun t k => C51_factorisation le_rfl (h t k)
  have h1 := hf.apply fun k => qr_jet
    (fun t => stRetractArg_gram hX ((stiefelTangent_subspace negX).smul t hV) k)
    (fun t => (hq t k).1) fun t => (hq t k).2
  have h0 : stInner negX (stE2rg negX negG) negV = stackDot negG negV :=
    ((C66_projection negX hX).represents negG hV).trans (stInner_eq negX negG negV)
  rw [h0, stiefel_hess_form hX hV] at hj
  have h2 := add_left_cancel (h1.unique hj)
  rw [stackDot_eq, stackDot_eq] at h2
  simp [trDot_eq_sum, negX, negV, negG, upperTwice, mul_apply, Fin.sum_univ_succ, vecHead, vecMul,
    dotProduct] at h2

/-! ### Concrete cases -/

/-- The linear cost above along the geodesic of Stiefel: the second derivative is `-1`. -/
example : Jet2 (fun t : ℝ => stackDot negG (stExp negX (t • negV))) 0 0 (-1) := by
  have h := C126_stiefel C126_qr_negation.1 C126_qr_negation.2.1 C126_qr_negation.2.2.1
  rw [stiefel_hess_form C126_qr_negation.1 C126_qr_negation.2.1,
    show stInner negX (stE2rg negX negG) negV = stackDot negG negV from
      ((C66_projection negX C126_qr_negation.1).represents negG C126_qr_negation.2.1).trans
        (stInner_eq negX negG negV)] at h
  refine h.congr_jet ?_ ?_ ?_
  · simp [stackDot_eq, trDot_eq_sum, negX, negG, Fin.sum_univ_succ]
  · simp [stackDot_eq, trDot_eq_sum, negV, negG, Fin.sum_univ_succ]
  · simp [stackDot_eq, trDot_eq_sum, negX, negV, negG, mul_apply, Fin.sum_univ_succ, vecMul,
      dotProduct]

/-- The hypotheses of the Grassmann case are met by the same point and direction. -/
example : Orthonormal' negX ∧ GrHorizontal negX negV := by
  constructor
  · rw [orthonormal_iff]
    intro k
    ext i j
    fin_cases i <;> fin_cases j <;> simp [negX, mul_apply, Fin.sum_univ_succ]
  · rw [grHorizontal_iff]
    intro k
    ext i j
    fin_cases i <;> fin_cases j <;> simp [negX, negV, mul_apply, Fin.sum_univ_succ]

/-- A linear cost of positive definite matrices at the identity in a Hermitian direction. -/
example (G V I : Stack (Fin 1) (Fin 2) (Fin 2) ℂ) (hI : I = fun _ => 1) (hV : HermStack V) :
    Jet2 (fun t : ℝ => stackDot G (pdExp I (t • V))) (stackDot G I) (pdInner I (pdE2rg I G) V)
      (pdInner I (pdE2rh I G 0 V) V) :=
  (C126_positive_definite (fun k => by rw [hI]; exact PosDef.one) hV (ETaylorStack.linear I G V)).1

/-- A rotation and a direction. -/
example : OnUnitary (fun _ : Fin 1 => (1 : Matrix (Fin 2) (Fin 2) ℝ)) ∧
    InLie (fun _ : Fin 1 => !![0, -1; 1, (0 : ℝ)]) := by
  constructor
  · intro k; simp
  · intro k; ext i j; fin_cases i <;> fin_cases j <;> simp

/-- A critical point for the QR retraction that is not stationary for the ambient cost: the cost
`<X, ·>` at `X`. -/
example : stE2rg negX negX = 0 := by
  funext k
  have h : (negX k)ᵀ * negX k = 1 := onStiefel_iff.mp C126_qr_negation.1 k
  change negX k - negX k * symPart ((negX k)ᵀ * negX k) = 0
  rw [h, symPart_of_symm transpose_one, Matrix.mul_one, sub_self]

end Verif.Geo
