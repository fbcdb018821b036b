/-
C115: the guarantees of the trust-region subproblem solver on tangent spaces that are proper subspaces
of the arrays representing tangent vectors.
-/
import Verif.Opt.Props.TCG

namespace Verif.Opt
open PyNum
open scoped InnerProductSpace

variable {P V E : Type*} [NormedAddCommGroup V] [InnerProductSpace ℝ V]

/-- The subproblem solver returns a tangent vector in the region, on the boundary when it reports having
stopped there, with the Hessian at it, at which the model is at most its value at every multiple of
the negative gradient in the region. -/
def TCGSound (pb : Prob ℝ P E) (On : P → Prop) (Tan : P → E → Prop) : Prop :=
  ∀ (c : TRCfg ℝ) (mininner maxinner : ℤ) (x : P) (Delta : ℝ) (o : TCGOut E), c.useRand = false →
    On x → tcg c pb x (pb.grad x) (pb.M.zeroVector x) Delta mininner maxinner = .ok o →
    Tan x o.eta ∧ o.Heta = pb.hess x o.eta ∧ pb.M.inner x o.eta o.eta ≤ Delta ^ 2 ∧
    ((o.stop = .negativeCurvature ∨ o.stop = .exceededTR) →
      pb.M.inner x o.eta o.eta = Delta ^ 2) ∧
    ∀ t, 0 ≤ t → t ^ 2 * pb.M.inner x (pb.grad x) (pb.grad x) ≤ Delta ^ 2 →
      pb.M.inner x (pb.grad x) o.eta + 1 / 2 * pb.M.inner x o.eta o.Heta ≤
        -t * pb.M.inner x (pb.grad x) (pb.grad x) +
          1 / 2 * t ^ 2 * pb.M.inner x (pb.grad x) (pb.hess x (pb.grad x))

/-- `φ` embeds the inner product space `V` as the tangent space at `x`, and carries `H` and `K` to the
Hessian and the preconditioner. -/
structure TangentAt (pb : Prob ℝ P E) (x : P) (φ : V → E) (H : V →ₗ[ℝ] V) (K : V → V) : Prop where
  inner : ∀ u v, pb.M.inner x (φ u) (φ v) = ⟪u, v⟫_ℝ
  zero : pb.M.zeroVector x = φ 0
  toTangent : ∀ v, pb.M.toTangent x (φ v) = φ v
  add : ∀ u v, pb.M.add (φ u) (φ v) = φ (u + v)
  neg : ∀ u, pb.M.neg (φ u) = φ (-u)
  smul : ∀ (a : ℝ) u, pb.M.smul a (φ u) = φ (a • u)
  hess : ∀ v, pb.hess x (φ v) = φ (H v)
  precon : ∀ v, pb.precon x (φ v) = φ (K v)

/-- The problem on `V`. -/
noncomputable def pullProb (H : V →ₗ[ℝ] V) (K : V → V) : Prob ℝ P V where
  M :=
    { dim := 0
      norm := fun _ v => ‖v‖
      inner := fun _ u v => ⟪u, v⟫_ℝ
      retraction := fun x _ => x
      transport := fun _ _ v => v
      log := fun _ _ => 0
      pairMean := fun x _ => x
      zeroVector := fun _ => 0
      toTangent := fun _ v => v
      add := fun u v => u + v
      sub := fun u v => u - v
      neg := fun v => -v
      smul := fun a v => a • v }
  cost := fun _ => 0
  grad := fun _ => 0
  hess := fun _ v => H v
  precon := fun _ v => K v

theorem pullProb_exact (x : P) (H : V →ₗ[ℝ] V) (K : V → V) :
    ExactAt (pullProb (P := P) H K) x H :=
  ⟨fun _ _ => rfl, rfl, fun _ => rfl, fun _ _ => rfl, fun _ => rfl, fun _ _ => rfl, fun _ => rfl⟩

/-- Embedding of a state. -/
def TCGState.push (φ : V → E) (s : TCGState ℝ V) : TCGState ℝ E where
  eta := φ s.eta
  Heta := φ s.Heta
  r := φ s.r
  ePe := s.ePe
  zr := s.zr
  dPd := s.dPd
  delta := φ s.delta
  ePd := s.ePd
  modelValue := s.modelValue

/-- Embedding of a result. -/
def TCGOut.push (φ : V → E) (o : TCGOut V) : TCGOut E where
  eta := φ o.eta
  Heta := φ o.Heta
  j := o.j
  stop := o.stop
  hessCalls := o.hessCalls

/-- Embedding of the outcome of an iteration. -/
def pushCtl (φ : V → E) : Ctl (TCGState ℝ V) (TCGOut V) → Ctl (TCGState ℝ E) (TCGOut E)
  | .next s => .next (s.push φ)
  | .brk o => .brk (o.push φ)

section
variable {c : TRCfg ℝ} {pb : Prob ℝ P E} {x : P} {φ : V → E} {H : V →ₗ[ℝ] V} {K : V → V}

theorem tcgBody_push (hE : TangentAt pb x φ H K) (g : V) (Delta normr0 : ℝ) (mininner : ℤ) (j : ℕ)
    (s : TCGState ℝ V) :
    tcgBody c pb x (φ g) Delta normr0 mininner j (s.push φ) =
      (tcgBody c (pullProb (P := P) H K) x g Delta normr0 mininner j s).map (pushCtl φ) := by
  have hz : ∀ v, (if c.useRand then φ v else pb.precon x (φ v)) =
      φ (if c.useRand then v else K v) := by
    intro v
    split
    · rfl
    · exact hE.precon v
  have hP := pullProb_exact (P := P) x H K
  have hpc : ∀ v, (pullProb (P := P) H K).precon x v = K v := fun _ => rfl
  simp only [tcgBody, TCGState.push, modelFun, hE.inner, hE.toTangent, hE.add, hE.neg, hE.smul,
    hE.hess, hz, hP.inner, hP.toTangent, hP.add, hP.neg, hP.smul, hP.hess, hpc]
  generalize (if ne0 ⟪s.delta, H s.delta⟫_ℝ = true then _ else _ : Except PyErr (ℝ × ℝ)) = pre
  rcases pre with e | ⟨alpha, ePeNew⟩
  · rfl
  · dsimp only
    split
    · generalize div _ s.dPd = q
      rcases q with e | tau <;> rfl
    · split
      · rfl
      · split
        · rfl
        · generalize div _ s.zr = q
          rcases q with e | beta <;> rfl

theorem tcgLoop_push (hE : TangentAt pb x φ H K) (g : V) (Delta normr0 : ℝ) (mininner : ℤ) (n : ℕ) :
    ∀ (j : ℕ) (s : TCGState ℝ V),
    tcgLoop c pb x (φ g) Delta normr0 mininner n j (s.push φ) =
      (tcgLoop c (pullProb (P := P) H K) x g Delta normr0 mininner n j s).map (TCGOut.push φ) := by
  induction n with
  | zero =>
    intro j s
    cases j <;> rfl
  | succ n ih =>
    intro j s
    simp only [tcgLoop]
    rw [tcgBody_push hE]
    rcases tcgBody c (pullProb (P := P) H K) x g Delta normr0 mininner j s with e | s' | o
    · rfl
    · exact ih _ _
    · rfl

theorem tcg_push (hE : TangentAt pb x φ H K) (hrand : c.useRand = false) (g : V) (Delta : ℝ)
    (mininner maxinner : ℤ) :
    tcg c pb x (φ g) (pb.M.zeroVector x) Delta mininner maxinner =
      (tcg c (pullProb (P := P) H K) x g 0 Delta mininner maxinner).map (TCGOut.push φ) := by
  have hi : tcgInit c pb x (φ g) (pb.M.zeroVector x) =
      (tcgInit c (pullProb (P := P) H K) x g 0).push φ := by
    unfold tcgInit
    simp only [hrand, Bool.false_eq_true, if_false, hE.precon, hE.inner, hE.neg, hE.zero]
    rfl
  unfold tcg
  simp only [hi]
  rw [← tcgLoop_push hE]
  congr 2
  exact hE.inner _ _

/-- The guarantees at one point. -/
theorem tcg_sound_at (hE : TangentAt pb x φ H fun v => v)
    (hsym : ∀ u v, ⟪H u, v⟫_ℝ = ⟪u, H v⟫_ℝ) (hrand : c.useRand = false) {g : V} {Delta : ℝ}
    {mininner maxinner : ℤ} {o : TCGOut E}
    (h : tcg c pb x (φ g) (pb.M.zeroVector x) Delta mininner maxinner = .ok o) :
    ∃ eta : V, o.eta = φ eta ∧ o.Heta = φ (H eta) ∧ ⟪eta, eta⟫_ℝ ≤ Delta ^ 2 ∧
      ((o.stop = .negativeCurvature ∨ o.stop = .exceededTR) → ⟪eta, eta⟫_ℝ = Delta ^ 2) ∧
      ∀ t, 0 ≤ t → t ^ 2 * ⟪g, g⟫_ℝ ≤ Delta ^ 2 →
        ⟪g, eta⟫_ℝ + 1 / 2 * ⟪eta, H eta⟫_ℝ ≤ -t * ⟪g, g⟫_ℝ + 1 / 2 * t ^ 2 * ⟪g, H g⟫_ℝ := by
  rw [tcg_push hE hrand] at h
  rcases ho : tcg c (pullProb (P := P) H fun v => v) x g 0 Delta mininner maxinner with e | o'
  · rw [ho] at h; cases h
  · rw [ho] at h
    obtain rfl : o'.push φ = o := by injection h
    have hP := pullProb_exact (P := P) x H fun v => v
    have hW : PreconAt c (pullProb (P := P) H fun v => v) x (LinearEquiv.refl ℝ V) :=
      ⟨fun _ _ => rfl, fun u hu => by
        rw [LinearEquiv.refl_apply, real_inner_self_eq_norm_sq]; positivity,
        fun v => ite_self _⟩
    have h1 := C29_model_decrease hP hW hsym ho
    have h2 := C28_step_norm_precon hP hW hsym ho
    refine ⟨o'.eta, rfl, congrArg φ h1.1, h2.1, h2.2, fun t ht htD => ?_⟩
    have h3 := C104_cauchy_decrease hP hW hsym ho hrand ht (le_of_eq_of_le (by
      change ⟪t • -g, t • -g⟫_ℝ = t ^ 2 * ⟪g, g⟫_ℝ
      simp only [inner_neg_left, inner_neg_right, real_inner_smul_left, real_inner_smul_right]
      ring) htD)
    change quad g H o'.eta ≤ quad g H (t • -g) at h3
    unfold quad at h3
    simp only [inner_neg_left, inner_neg_right, real_inner_smul_left, real_inner_smul_right,
      map_smul, map_neg] at h3
    rw [real_inner_comm]
    nlinarith

end

end Verif.Opt
