/-
C145: the inner solver of trust regions in exact arithmetic is the conjugate gradient method: its
interior steps minimise the model over Krylov spaces, it needs at most as many Hessian products as
the tangent space has dimensions, and a larger region never gives a worse model value.
-/
import Mathlib.LinearAlgebra.FiniteDimensional.Lemmas
import Mathlib.LinearAlgebra.Complex.FiniteDimensional
import Verif.Opt.Props.TCG

namespace Verif.Opt
open PyNum
open scoped InnerProductSpace

variable {P V : Type*} [NormedAddCommGroup V] [InnerProductSpace ℝ V]

/-! ### Specification -/

/-- The Krylov space spanned by `(W⁻¹ H)^i W⁻¹ g` for `i < n`. -/
def krylovSpace (g : V) (H : V →ₗ[ℝ] V) (W : V ≃ₗ[ℝ] V) (n : ℕ) : Submodule ℝ V :=
  Submodule.span ℝ ((fun i : ℕ => (fun v => W.symm (H v))^[i] (W.symm g)) '' Set.Iio n)

/-- The step was not cut off at the boundary of the trust region. -/
def TCGStop.interior (s : TCGStop) : Prop := s ≠ .negativeCurvature ∧ s ≠ .exceededTR

/-! ### Krylov spaces -/

section
variable {g : V} {H : V →ₗ[ℝ] V} {W : V ≃ₗ[ℝ] V}

theorem krylovSpace_zero : krylovSpace g H W 0 = ⊥ := by
  simp [krylovSpace]

theorem krylovSpace_mono {m n : ℕ} (h : m ≤ n) : krylovSpace g H W m ≤ krylovSpace g H W n :=
  Submodule.span_mono (Set.image_mono (Set.Iio_subset_Iio h))

theorem base_mem_krylovSpace (n : ℕ) : W.symm g ∈ krylovSpace g H W (n + 1) :=
  Submodule.subset_span ⟨0, by simp, rfl⟩

theorem map_mem_krylovSpace {n : ℕ} {v : V} (hv : v ∈ krylovSpace g H W n) :
    W.symm (H v) ∈ krylovSpace g H W (n + 1) := by
  have : krylovSpace g H W n ≤
      (krylovSpace g H W (n + 1)).comap (W.symm.toLinearMap ∘ₗ H) := by
    refine Submodule.span_le.2 ?_
    rintro _ ⟨i, hi, rfl⟩
    refine Submodule.subset_span ⟨i + 1, by simpa using hi, ?_⟩
    simp only [Function.iterate_succ_apply']
    rfl
  exact this hv

theorem krylovSpace_succ_le {n : ℕ} {T : Submodule ℝ V} (h0 : W.symm g ∈ T)
    (h : ∀ v ∈ krylovSpace g H W n, W.symm (H v) ∈ T) : krylovSpace g H W (n + 1) ≤ T := by
  refine Submodule.span_le.2 ?_
  rintro _ ⟨i, hi, rfl⟩
  cases i with
  | zero => exact h0
  | succ i =>
    simp only [Function.iterate_succ_apply']
    exact h _ (Submodule.subset_span ⟨i, by simpa using hi, rfl⟩)

end

/-! ### The loop body in exact arithmetic -/

section
variable {c : TRCfg ℝ} {pb : Prob ℝ P V} {x : P} {H : V →ₗ[ℝ] V} {W : V ≃ₗ[ℝ] V} {g : V}
  {Delta normr0 : ℝ} {mininner : ℤ}

/-- The residual norm at which the inner iteration stops. -/
noncomputable def tcgTarget (c : TRCfg ℝ) (normr0 : ℝ) : ℝ :=
  normr0 * min (normr0 ^ c.theta) c.kappa

/-- The step length to the boundary. -/
noncomputable def tauOf (Delta : ℝ) (s : TCGState ℝ V) : ℝ :=
  (-s.ePd + √(s.ePd * s.ePd + s.dPd * (Delta ^ 2 - s.ePe))) / s.dPd

theorem tcgBody_exact (hE : ExactAt pb x H) (hW : PreconAt c pb x W) (j : ℕ)
    {s : TCGState ℝ V} (hH : s.Heta = H s.eta) :
    tcgBody c pb x g Delta normr0 mininner j s =
      if ⟪s.delta, H s.delta⟫_ℝ ≤ 0 ∨ Delta ^ 2 ≤ (cgNext g H W s).ePe then
        if s.dPd = 0 then .error .zeroDivision
        else .ok (.brk ⟨s.eta + tauOf Delta s • s.delta, s.Heta + tauOf Delta s • H s.delta, j,
          if ⟪s.delta, H s.delta⟫_ℝ ≤ 0 then .negativeCurvature else .exceededTR, j + 1⟩)
      else if s.modelValue ≤ (cgNext g H W s).modelValue then
        .ok (.brk ⟨s.eta, s.Heta, j, .modelIncreased, j + 1⟩)
      else if mininner ≤ (j : ℤ) ∧ ‖(cgNext g H W s).r‖ ≤ tcgTarget c normr0 then
        .ok (.brk ⟨(cgNext g H W s).eta, (cgNext g H W s).Heta, j,
          if c.kappa < normr0 ^ c.theta then .reachedTargetLinear else .reachedTargetSuperlinear,
          j + 1⟩)
      else if s.zr = 0 then .error .zeroDivision
      else .ok (.next (cgNext g H W s)) := by
  have hpow : ∀ a : ℝ, pow a (lit 2) = a ^ 2 := by
    intro a
    simp only [PyNum.pow, PyNum.lit]
    norm_num
  have hmin : ∀ a b : ℝ, pymin a b = min a b := by
    intro a b
    unfold pymin
    simp only [PyNum.lt, decide_eq_true_eq]
    split
    · rename_i h; exact (min_eq_right h.le).symm
    · rename_i h; exact (min_eq_left (not_lt.1 h)).symm
  have hmodel : ∀ a : ℝ, modelFun pb x g (s.eta + a • s.delta) (s.Heta + a • H s.delta)
      = quad g H (s.eta + a • s.delta) := by
    intro a
    simp [modelFun, quad, hE.inner, hH, PyNum.add, PyNum.mul, PyNum.lit]
  unfold tcgBody
  simp only [hE.hess, hE.inner, hE.add, hE.smul, hE.neg, hE.toTangent, hW.precon, hpow]
  by_cases hd0 : ⟪s.delta, H s.delta⟫_ℝ ≤ 0
  · have hle : PyNum.le ⟪s.delta, H s.delta⟫_ℝ (lit 0) = true := by
      simpa [PyNum.le, PyNum.lit] using hd0
    split
    · rename_i e he
      exfalso
      split at he
      · rename_i hn
        have : ⟪s.delta, H s.delta⟫_ℝ ≠ 0 := by
          intro h0
          rw [h0] at hn
          simp [ne0, PyNum.le, PyNum.lit] at hn
        simp [PyNum.div, this] at he
      · simp at he
    · rw [hle, Bool.true_or, if_pos rfl, if_pos (Or.inl hd0)]
      simp only [PyNum.div, PyNum.add, PyNum.neg, PyNum.sqrt, PyNum.mul, PyNum.sub]
      by_cases h0 : s.dPd = 0
      · simp [h0]
      · simp only [h0, if_false, if_pos hd0]
        rfl
  · have hle : PyNum.le ⟪s.delta, H s.delta⟫_ℝ (lit 0) = false := by
      simpa [PyNum.le, PyNum.lit] using hd0
    rw [not_le] at hd0
    have hn0 : ne0 ⟪s.delta, H s.delta⟫_ℝ = true := by
      unfold ne0
      rw [hle]
      rfl
    have hdok : div s.zr ⟪s.delta, H s.delta⟫_ℝ = .ok (s.zr / ⟪s.delta, H s.delta⟫_ℝ) := by
      simp [PyNum.div, hd0.ne']
    rw [hn0, if_pos rfl, hdok]
    simp only [hle, Bool.false_or, hmodel, hmin]
    have hePe : PyNum.add (PyNum.add s.ePe (mul (mul (lit 2) (s.zr / ⟪s.delta, H s.delta⟫_ℝ))
        s.ePd)) (mul ((s.zr / ⟪s.delta, H s.delta⟫_ℝ) ^ 2) s.dPd) = (cgNext g H W s).ePe := by
      simp [PyNum.add, PyNum.mul, PyNum.lit, cgNext]
    rw [hePe]
    by_cases hex : Delta ^ 2 ≤ (cgNext g H W s).ePe
    · rw [if_pos (by simpa [PyNum.le] using hex), if_pos (Or.inr hex)]
      simp only [PyNum.div, PyNum.add, PyNum.neg, PyNum.sqrt, PyNum.mul, PyNum.sub]
      by_cases h0 : s.dPd = 0
      · simp [h0]
      · simp only [h0, if_false, if_neg (not_le.2 hd0), Bool.false_eq_true]
        rfl
    · have hc : PyNum.le (Delta ^ 2) (cgNext g H W s).ePe = false := by
        simpa [PyNum.le] using hex
      have hno : ¬ (⟪s.delta, H s.delta⟫_ℝ ≤ 0 ∨ Delta ^ 2 ≤ (cgNext g H W s).ePe) := by
        rintro (h | h)
        · exact absurd h (not_le.2 hd0)
        · exact hex h
      rw [hc, if_neg hno]
      simp only [Bool.false_eq_true, if_false]
      have hq : quad g H (s.eta + (s.zr / ⟪s.delta, H s.delta⟫_ℝ) • s.delta)
          = (cgNext g H W s).modelValue := rfl
      rw [hq]
      by_cases hm : s.modelValue ≤ (cgNext g H W s).modelValue
      · have hm' : PyNum.le s.modelValue (cgNext g H W s).modelValue = true := by
          simpa [PyNum.le] using hm
        rw [hm', if_pos hm, if_pos rfl]
      · have hm' : PyNum.le s.modelValue (cgNext g H W s).modelValue = false := by
          simpa [PyNum.le] using hm
        rw [hm', if_neg hm]
        simp only [Bool.false_eq_true, if_false]
        have ht : ((decide (mininner ≤ (j : ℤ)) && PyNum.le (PyNum.sqrt
            ⟪s.r + (s.zr / ⟪s.delta, H s.delta⟫_ℝ) • H s.delta,
              s.r + (s.zr / ⟪s.delta, H s.delta⟫_ℝ) • H s.delta⟫_ℝ)
            (mul normr0 (min (pow normr0 c.theta) c.kappa))) = true) ↔
            (mininner ≤ (j : ℤ) ∧ ‖(cgNext g H W s).r‖ ≤ tcgTarget c normr0) := by
          rw [Bool.and_eq_true, decide_eq_true_eq]
          simp only [PyNum.le, PyNum.sqrt, decide_eq_true_eq, real_inner_self_eq_norm_sq,
            Real.sqrt_sq (norm_nonneg _)]
          rfl
        by_cases hs : mininner ≤ (j : ℤ) ∧ ‖(cgNext g H W s).r‖ ≤ tcgTarget c normr0
        · rw [if_pos (ht.2 hs), if_pos hs]
          simp only [PyNum.lt, decide_eq_true_eq]
          rfl
        · rw [if_neg (fun h => hs (ht.1 h)), if_neg hs]
          by_cases hz : s.zr = 0
          · simp [PyNum.div, hz]
          · simp only [PyNum.div, hz, if_false]
            rfl

end

/-! ### The invariant -/

/-- The invariant of the conjugate gradient method before the inner iteration `j`. -/
structure KInv (g : V) (H : V →ₗ[ℝ] V) (W : V ≃ₗ[ℝ] V) (j : ℕ) (s : TCGState ℝ V) : Prop where
  inv : ∃ D N, TInv g H W D N (krylovSpace g H W j) s
  pos : ∀ u ∈ krylovSpace g H W j, u ≠ 0 → 0 < ⟪u, H u⟫_ℝ
  rank : Module.finrank ℝ (krylovSpace g H W j) = j
  ePd : 0 ≤ s.ePd

section
variable {c : TRCfg ℝ} {pb : Prob ℝ P V} {x : P} {H : V →ₗ[ℝ] V} {W : V ≃ₗ[ℝ] V} {g : V}
  {Delta M normr0 : ℝ} {mininner : ℤ} {j : ℕ} {s : TCGState ℝ V}

theorem KInv.zr_nonneg (hW : PreconAt c pb x W) (hs : KInv g H W j s) : 0 ≤ s.zr := by
  obtain ⟨D, N, hT⟩ := hs.inv
  rw [hT.zr]
  have := hW.nonneg (W.symm s.r)
  simpa using this

theorem KInv.zr_pos (hW : PreconAt c pb x W) (hs : KInv g H W j s) (hr : s.r ≠ 0) :
    0 < s.zr := by
  obtain ⟨D, N, hT⟩ := hs.inv
  rw [hT.zr]
  have := hW.pos (W.symm s.r) (by simpa using hr)
  simpa using this

theorem KInv.dPd_nonneg (hW : PreconAt c pb x W) (hs : KInv g H W j s) : 0 ≤ s.dPd := by
  obtain ⟨D, N, hT⟩ := hs.inv
  rw [hT.dPd]
  exact hW.nonneg _

/-- A direction of nonzero length is not in the span of the previous ones. -/
theorem KInv.delta_notMem (hs : KInv g H W j s) (hd : s.delta ≠ 0) :
    s.delta ∉ krylovSpace g H W j := by
  intro hm
  obtain ⟨D, N, hT⟩ := hs.inv
  exact (hs.pos _ hm hd).ne' (hT.conj _ hm)

theorem KInv.delta_ne_zero (hs : KInv g H W j s) (hW : PreconAt c pb x W) (hr : s.r ≠ 0) :
    s.delta ≠ 0 := by
  intro h0
  obtain ⟨D, N, hT⟩ := hs.inv
  have h1 := hT.delta_r
  rw [h0, inner_zero_left] at h1
  have := hs.zr_pos hW hr
  linarith

theorem KInv.r_ne_zero (hs : KInv g H W j s) (hd : s.delta ≠ 0) : s.r ≠ 0 := by
  intro h0
  obtain ⟨D, N, hT⟩ := hs.inv
  have h1 := hT.z_mem
  rw [h0, map_zero, zero_add] at h1
  exact hs.delta_notMem hd h1

/-- The next Krylov space is spanned by the previous one and the search direction. -/
theorem KInv.succ (hs : KInv g H W j s) :
    krylovSpace g H W j ⊔ Submodule.span ℝ {s.delta} = krylovSpace g H W (j + 1) := by
  obtain ⟨D, N, hT⟩ := hs.inv
  have hmap : ∀ v ∈ krylovSpace g H W j,
      W.symm (H v) ∈ krylovSpace g H W j ⊔ Submodule.span ℝ {s.delta} := by
    intro v hv
    obtain ⟨k, hk⟩ := hT.krylov v hv
    have := Submodule.add_mem _ (Submodule.mem_sup_left (T := Submodule.span ℝ {s.delta}) hk)
      (Submodule.mem_sup_right (Submodule.smul_mem _ k (Submodule.mem_span_singleton_self s.delta)))
    simpa using this
  have hz : W.symm s.r = W.symm g + W.symm (H s.eta) := by rw [hT.r, map_add]
  refine le_antisymm (sup_le (krylovSpace_mono (Nat.le_succ j)) ?_) (krylovSpace_succ_le ?_ hmap)
  · rw [Submodule.span_singleton_le_iff_mem]
    have h1 : s.delta = (W.symm s.r + s.delta) - (W.symm g + W.symm (H s.eta)) := by
      rw [hz]; abel
    rw [h1]
    exact Submodule.sub_mem _ (krylovSpace_mono (Nat.le_succ j) hT.z_mem)
      (Submodule.add_mem _ (base_mem_krylovSpace j) (map_mem_krylovSpace hT.eta_mem))
  · have h1 : W.symm g = (W.symm s.r + s.delta) - W.symm (H s.eta) - s.delta := by
      rw [hz]; abel
    rw [h1]
    exact Submodule.sub_mem _ (Submodule.sub_mem _ (Submodule.mem_sup_left hT.z_mem)
      (hmap _ hT.eta_mem)) (Submodule.mem_sup_right (Submodule.mem_span_singleton_self _))

theorem kinv_init (g : V) (H : V →ₗ[ℝ] V) (W : V ≃ₗ[ℝ] V) : KInv g H W 0
    ⟨0, 0, g, 0, ⟪W.symm g, g⟫_ℝ, ⟪W.symm g, g⟫_ℝ, -W.symm g, 0, 0⟩ where
  inv := ⟨0, 0, by rw [krylovSpace_zero]; exact tinv_init g H W 0⟩
  pos u hu h := by
    rw [krylovSpace_zero] at hu
    exact absurd ((Submodule.mem_bot ℝ).1 hu) h
  rank := by rw [krylovSpace_zero]; simp
  ePd := le_rfl

/-- The new residual is orthogonal to the next Krylov space, on which the curvature is positive. -/
theorem KInv.step (hs : KInv g H W j s) (hsym : ∀ u v, ⟪H u, v⟫_ℝ = ⟪u, H v⟫_ℝ)
    (hd : 0 < ⟪s.delta, H s.delta⟫_ℝ) :
    (cgNext g H W s).eta ∈ krylovSpace g H W (j + 1) ∧
    (∀ u ∈ krylovSpace g H W (j + 1), ⟪u, g + H (cgNext g H W s).eta⟫_ℝ = 0) ∧
    (∀ u ∈ krylovSpace g H W (j + 1), u ≠ 0 → 0 < ⟪u, H u⟫_ℝ) ∧
    Module.finrank ℝ (krylovSpace g H W (j + 1)) = j + 1 := by
  obtain ⟨D, N, hT⟩ := hs.inv
  have hd0 : s.delta ≠ 0 := by
    rintro h
    rw [h, inner_zero_left] at hd
    exact lt_irrefl _ hd
  have hmem : ∀ u, u ∈ krylovSpace g H W (j + 1) →
      ∃ v ∈ krylovSpace g H W j, ∃ a : ℝ, v + a • s.delta = u := by
    intro u hu
    rw [← hs.succ] at hu
    obtain ⟨v, hv, w, hw, rfl⟩ := Submodule.mem_sup.1 hu
    obtain ⟨a, rfl⟩ := Submodule.mem_span_singleton.1 hw
    exact ⟨v, hv, a, rfl⟩
  refine ⟨?_, ?_, ?_, ?_⟩
  · rw [← hs.succ]
    exact Submodule.add_mem _ (Submodule.mem_sup_left hT.eta_mem)
      (Submodule.smul_mem _ _ (Submodule.mem_sup_right (Submodule.mem_span_singleton_self _)))
  · intro u hu
    obtain ⟨v, hv, a, rfl⟩ := hmem u hu
    change ⟪v + a • s.delta, g + H (s.eta + (s.zr / ⟪s.delta, H s.delta⟫_ℝ) • s.delta)⟫_ℝ = 0
    have h1 := hT.r_perp v hv
    have h2 := hT.delta_r
    rw [hT.r] at h1 h2
    have h3 : ∀ w : V, ⟪w, g + H (s.eta + (s.zr / ⟪s.delta, H s.delta⟫_ℝ) • s.delta)⟫_ℝ
        = ⟪w, g + H s.eta⟫_ℝ + s.zr / ⟪s.delta, H s.delta⟫_ℝ * ⟪w, H s.delta⟫_ℝ := by
      intro w
      rw [map_add, map_smul, ← add_assoc, inner_add_right w (g + H s.eta), real_inner_smul_right]
    rw [inner_add_left, real_inner_smul_left, h3, h3, h1, h2, hT.conj v hv,
      div_mul_cancel₀ _ hd.ne']
    ring
  · intro u hu hu0
    obtain ⟨v, hv, a, rfl⟩ := hmem u hu
    have h1 : ⟪s.delta, H v⟫_ℝ = 0 := by
      rw [← hsym, real_inner_comm]; exact hT.conj v hv
    have h2 : ⟪v + a • s.delta, H (v + a • s.delta)⟫_ℝ
        = ⟪v, H v⟫_ℝ + a ^ 2 * ⟪s.delta, H s.delta⟫_ℝ := by
      simp only [map_add, map_smul, inner_add_left, inner_add_right, real_inner_smul_left,
        real_inner_smul_right, h1, hT.conj v hv]
      ring
    rw [h2]
    by_cases hv0 : v = 0
    · subst hv0
      have ha : a ≠ 0 := by
        rintro rfl
        simp at hu0
      rw [inner_zero_left]
      positivity
    · have := hs.pos v hv hv0
      positivity
  · rw [← hs.succ]
    have hfd : ∀ n, FiniteDimensional ℝ (krylovSpace g H W n) := fun n =>
      FiniteDimensional.span_of_finite ℝ ((Set.finite_Iio n).image _)
    have := hfd j
    have hinf : krylovSpace g H W j ⊓ Submodule.span ℝ {s.delta} = ⊥ := by
      rw [← disjoint_iff, Submodule.disjoint_span_singleton' hd0]
      exact hs.delta_notMem hd0
    have := Submodule.finrank_sup_add_finrank_inf_eq (krylovSpace g H W j)
      (Submodule.span ℝ {s.delta})
    rw [hinf, finrank_bot, add_zero, hs.rank, finrank_span_singleton hd0] at this
    exact this

theorem KInv.next (hs : KInv g H W j s) (hW : PreconAt c pb x W)
    (hsym : ∀ u v, ⟪H u, v⟫_ℝ = ⟪u, H v⟫_ℝ)
    (hd : 0 < ⟪s.delta, H s.delta⟫_ℝ) : KInv g H W (j + 1) (cgNext g H W s) := by
  obtain ⟨D, N, hT⟩ := hs.inv
  obtain ⟨-, -, h3, h4⟩ := hs.step hsym hd
  have hd0 : s.delta ≠ 0 := by
    rintro h
    rw [h, inner_zero_left] at hd
    exact lt_irrefl _ hd
  have hz := hs.zr_pos hW (hs.r_ne_zero hd0)
  refine ⟨⟨√(cgNext g H W s).ePe, (cgNext g H W s).modelValue, ?_⟩, h3, h4, ?_⟩
  · have he : (cgNext g H W s).ePe = ⟪(cgNext g H W s).eta, W (cgNext g H W s).eta⟫_ℝ := by
      change s.ePe + 2 * (s.zr / ⟪s.delta, H s.delta⟫_ℝ) * s.ePd
        + (s.zr / ⟪s.delta, H s.delta⟫_ℝ) ^ 2 * s.dPd = ⟪s.eta + (s.zr / ⟪s.delta, H s.delta⟫_ℝ) •
          s.delta, W (s.eta + (s.zr / ⟪s.delta, H s.delta⟫_ℝ) • s.delta)⟫_ℝ
      rw [normsq_add hW, ← hT.ePe, ← hT.ePd, ← hT.dPd]
    have hsq : √(cgNext g H W s).ePe ^ 2 = (cgNext g H W s).ePe :=
      Real.sq_sqrt (by rw [he]; exact hW.nonneg _)
    rw [← hs.succ]
    exact hT.next hW hsym hd hz.ne' hsq.ge le_rfl
  · have h1 := hs.ePd
    have h2 := hs.dPd_nonneg hW
    have h5 : 0 ≤ ⟪W.symm (cgNext g H W s).r, (cgNext g H W s).r⟫_ℝ := by
      have := hW.nonneg (W.symm (cgNext g H W s).r)
      simpa using this
    change 0 ≤ ⟪W.symm (cgNext g H W s).r, (cgNext g H W s).r⟫_ℝ / s.zr *
      (s.ePd + s.zr / ⟪s.delta, H s.delta⟫_ℝ * s.dPd)
    positivity

/-- The model decreases in every inner iteration. -/
theorem KInv.decrease (hs : KInv g H W j s) (hW : PreconAt c pb x W)
    (hsym : ∀ u v, ⟪H u, v⟫_ℝ = ⟪u, H v⟫_ℝ)
    (hd : 0 < ⟪s.delta, H s.delta⟫_ℝ) : (cgNext g H W s).modelValue < s.modelValue := by
  obtain ⟨D, N, hT⟩ := hs.inv
  have hd0 : s.delta ≠ 0 := by
    rintro h
    rw [h, inner_zero_left] at hd
    exact lt_irrefl _ hd
  have hz := hs.zr_pos hW (hs.r_ne_zero hd0)
  change quad g H (s.eta + (s.zr / ⟪s.delta, H s.delta⟫_ℝ) • s.delta) < _
  rw [quad_add hsym, hT.model, ← hT.r, hT.delta_r]
  have : s.zr / ⟪s.delta, H s.delta⟫_ℝ * -s.zr
      + (s.zr / ⟪s.delta, H s.delta⟫_ℝ) ^ 2 / 2 * ⟪s.delta, H s.delta⟫_ℝ
      = -(s.zr ^ 2 / (2 * ⟪s.delta, H s.delta⟫_ℝ)) := by
    field_simp
    ring
  have h2 : 0 < s.zr ^ 2 / (2 * ⟪s.delta, H s.delta⟫_ℝ) := by positivity
  linarith

/-- The norm of the step does not decrease. -/
theorem KInv.grow (hs : KInv g H W j s) (hW : PreconAt c pb x W)
    (hd : 0 < ⟪s.delta, H s.delta⟫_ℝ) : s.ePe ≤ (cgNext g H W s).ePe := by
  have h1 := hs.ePd
  have h2 := hs.dPd_nonneg hW
  have h3 := hs.zr_nonneg hW
  change s.ePe ≤ s.ePe + 2 * (s.zr / ⟪s.delta, H s.delta⟫_ℝ) * s.ePd
    + (s.zr / ⟪s.delta, H s.delta⟫_ℝ) ^ 2 * s.dPd
  have : 0 ≤ 2 * (s.zr / ⟪s.delta, H s.delta⟫_ℝ) * s.ePd
    + (s.zr / ⟪s.delta, H s.delta⟫_ℝ) ^ 2 * s.dPd := by positivity
  linarith

omit [NormedAddCommGroup V] [InnerProductSpace ℝ V] in
theorem tcgLoop_calls_eq (n j : ℕ) {s : TCGState ℝ V} {o : TCGOut V}
    (h : tcgLoop c pb x g Delta normr0 mininner n j s = .ok o) : o.hessCalls = o.j + 1 := by
  induction n generalizing j s with
  | zero =>
    cases j with
    | zero => cases h
    | succ j => cases h; rfl
  | succ n ih =>
    unfold tcgLoop at h
    split at h
    · cases h
    · rename_i o' ho
      cases h
      have := tcgBody_calls ho
      omega
    · exact ih _ h

/-- What holds of the returned step. -/
structure KPost (g : V) (H : V →ₗ[ℝ] V) (W : V ≃ₗ[ℝ] V) (Delta tgt : ℝ) (mininner : ℤ) (n : ℕ)
    (o : TCGOut V) : Prop where
  mem : o.eta ∈ krylovSpace g H W (o.j + 1)
  notInc : o.stop ≠ .modelIncreased
  inside : o.stop.interior → ⟪o.eta, W o.eta⟫_ℝ < Delta ^ 2
  perp : o.stop.interior → ∀ u ∈ krylovSpace g H W (o.j + 1), ⟪u, g + H o.eta⟫_ℝ = 0
  pos : o.stop.interior → ∀ u ∈ krylovSpace g H W (o.j + 1), u ≠ 0 → 0 < ⟪u, H u⟫_ℝ
  rank : o.stop.interior → Module.finrank ℝ (krylovSpace g H W (o.j + 1)) = o.j + 1
  lt_dim : FiniteDimensional ℝ V → o.j < Module.finrank ℝ V
  target : (o.stop = .reachedTargetLinear ∨ o.stop = .reachedTargetSuperlinear) →
    mininner ≤ (o.j : ℤ) ∧ ‖g + H o.eta‖ ≤ tgt
  last : o.stop = .maxInnerIter → o.j + 1 = n ∧ ¬ (mininner ≤ (o.j : ℤ) ∧ ‖g + H o.eta‖ ≤ tgt)

theorem KInv.lt_dim [FiniteDimensional ℝ V] (hs : KInv g H W j s) (hd : s.delta ≠ 0) :
    j < Module.finrank ℝ V := by
  have h1 := hs.delta_notMem hd
  have h2 : krylovSpace g H W j < ⊤ := lt_top_iff_ne_top.2 fun h => h1 (h ▸ Submodule.mem_top)
  have h3 := Submodule.finrank_lt h2.ne
  rwa [hs.rank] at h3

theorem cgNext_r (hs : KInv g H W j s) :
    (cgNext g H W s).r = g + H (cgNext g H W s).eta := by
  obtain ⟨D, N, hT⟩ := hs.inv
  change s.r + (s.zr / ⟪s.delta, H s.delta⟫_ℝ) • H s.delta
    = g + H (s.eta + (s.zr / ⟪s.delta, H s.delta⟫_ℝ) • s.delta)
  rw [hT.r, map_add, map_smul, add_assoc]

theorem cgNext_ePe (hs : KInv g H W j s) (hW : PreconAt c pb x W) :
    (cgNext g H W s).ePe = ⟪(cgNext g H W s).eta, W (cgNext g H W s).eta⟫_ℝ := by
  obtain ⟨D, N, hT⟩ := hs.inv
  change s.ePe + 2 * (s.zr / ⟪s.delta, H s.delta⟫_ℝ) * s.ePd
    + (s.zr / ⟪s.delta, H s.delta⟫_ℝ) ^ 2 * s.dPd = ⟪s.eta + (s.zr / ⟪s.delta, H s.delta⟫_ℝ) •
      s.delta, W (s.eta + (s.zr / ⟪s.delta, H s.delta⟫_ℝ) • s.delta)⟫_ℝ
  rw [normsq_add hW, ← hT.ePe, ← hT.ePd, ← hT.dPd]

theorem tcgLoop_krylov (hE : ExactAt pb x H) (hW : PreconAt c pb x W)
    (hsym : ∀ u v, ⟪H u, v⟫_ℝ = ⟪u, H v⟫_ℝ) (n : ℕ) (hs : KInv g H W j s)
    (hlast : ∀ i, j = i + 1 → s.ePe < Delta ^ 2 ∧
      ¬ (mininner ≤ (i : ℤ) ∧ ‖s.r‖ ≤ tcgTarget c normr0)) {o : TCGOut V}
    (h : tcgLoop c pb x g Delta normr0 mininner n j s = .ok o) :
    KPost g H W Delta (tcgTarget c normr0) mininner (n + j) o := by
  induction n generalizing j s with
  | zero =>
    cases j with
    | zero => cases h
    | succ j =>
      cases h
      obtain ⟨D, N, hT⟩ := hs.inv
      obtain ⟨h1, h2⟩ := hlast j rfl
      rw [hT.ePe] at h1
      have h3 := hT.r_perp
      rw [hT.r] at h2 h3
      refine ⟨hT.eta_mem, by simp, fun _ => h1, fun _ => h3, fun _ => hs.pos, fun _ => hs.rank,
        fun _ => ?_, by simp, fun _ => ⟨by simp, h2⟩⟩
      have h4 := Submodule.finrank_le (krylovSpace g H W (j + 1))
      rw [hs.rank] at h4
      exact h4
  | succ n ih =>
    have hT := hs.inv
    obtain ⟨D, N, hT⟩ := hT
    unfold tcgLoop at h
    rw [tcgBody_exact hE hW j hT.Heta] at h
    by_cases hbd : ⟪s.delta, H s.delta⟫_ℝ ≤ 0 ∨ Delta ^ 2 ≤ (cgNext g H W s).ePe
    · rw [if_pos hbd] at h
      by_cases h0 : s.dPd = 0
      · rw [if_pos h0] at h
        cases h
      · rw [if_neg h0] at h
        cases h
        have hd0 : s.delta ≠ 0 := by
          intro hd
          rw [hT.dPd, hd, inner_zero_left] at h0
          exact h0 rfl
        refine ⟨?_, ?_, ?_, ?_, ?_, ?_, fun _ => hs.lt_dim hd0, ?_, ?_⟩
        · simp only
          rw [← hs.succ]
          exact Submodule.add_mem _ (Submodule.mem_sup_left hT.eta_mem) (Submodule.smul_mem _ _
            (Submodule.mem_sup_right (Submodule.mem_span_singleton_self _)))
        · simp only
          split <;> simp
        all_goals simp only [TCGStop.interior]
        all_goals split <;> simp
    · rw [if_neg hbd] at h
      rw [not_or, not_le, not_le] at hbd
      obtain ⟨hd, hin⟩ := hbd
      have hd0 : s.delta ≠ 0 := by
        rintro h
        rw [h, inner_zero_left] at hd
        exact lt_irrefl _ hd
      rw [if_neg (not_le.2 (hs.decrease hW hsym hd))] at h
      obtain ⟨k1, k2, k3, k4⟩ := hs.step hsym hd
      by_cases ht : mininner ≤ (j : ℤ) ∧ ‖(cgNext g H W s).r‖ ≤ tcgTarget c normr0
      · rw [if_pos ht] at h
        cases h
        rw [cgNext_r hs] at ht
        rw [cgNext_ePe hs hW] at hin
        refine ⟨k1, ?_, fun _ => hin, fun _ => k2, fun _ => k3, fun _ => k4, fun _ => hs.lt_dim hd0,
          fun _ => ht, ?_⟩
        · simp only
          split <;> simp
        · simp only
          split <;> simp
      · rw [if_neg ht, if_neg (hs.zr_pos hW (hs.r_ne_zero hd0)).ne'] at h
        have := ih (hs.next hW hsym hd) (fun i hi => by
          obtain rfl : j = i := by omega
          exact ⟨hin, ht⟩) h
        rwa [show n + (j + 1) = n + 1 + j by omega] at this

theorem tcg_krylov (hE : ExactAt pb x H) (hW : PreconAt c pb x W)
    (hsym : ∀ u v, ⟪H u, v⟫_ℝ = ⟪u, H v⟫_ℝ) {maxinner : ℤ} {o : TCGOut V}
    (h : tcg c pb x g (pb.M.zeroVector x) Delta mininner maxinner = .ok o) :
    KPost g H W Delta (tcgTarget c ‖g‖) mininner maxinner.toNat o := by
  unfold tcg at h
  rw [tcgInit_exact hE hW] at h
  have hn : (PyNum.sqrt (pb.M.inner x g g) : ℝ) = ‖g‖ := by
    simp [PyNum.sqrt, hE.inner]
  simp only [hn] at h
  exact tcgLoop_krylov hE hW hsym _ (kinv_init g H W) (by simp) h

/-- Without a limit on the norm the iterates approach the Newton step from below. -/
theorem KInv.le_newton [FiniteDimensional ℝ V] (hW : PreconAt c pb x W)
    (hsym : ∀ u v, ⟪H u, v⟫_ℝ = ⟪u, H v⟫_ℝ) (hpd : ∀ u, u ≠ 0 → 0 < ⟪u, H u⟫_ℝ) {y : V}
    (hy : H y = -g) (hs : KInv g H W j s) : ⟪s.eta, W s.eta⟫_ℝ ≤ ⟪y, W y⟫_ℝ := by
  generalize hk : Module.finrank ℝ V - j = k
  induction k generalizing j s with
  | zero =>
    obtain ⟨D, N, hT⟩ := hs.inv
    have hr : s.r = 0 := by
      by_contra hr
      have := hs.lt_dim (hs.delta_ne_zero hW hr)
      omega
    have : H (s.eta - y) = 0 := by
      rw [map_sub, hy, sub_neg_eq_add, add_comm, ← hT.r, hr]
    have h0 : s.eta - y = 0 := by
      by_contra h0
      have := hpd _ h0
      rw [‹H (s.eta - y) = 0›, inner_zero_right] at this
      exact lt_irrefl _ this
    rw [sub_eq_zero.1 h0]
  | succ k ih =>
    obtain ⟨D, N, hT⟩ := hs.inv
    by_cases hr : s.r = 0
    · have h1 : H (s.eta - y) = 0 := by
        rw [map_sub, hy, sub_neg_eq_add, add_comm, ← hT.r, hr]
      have h0 : s.eta - y = 0 := by
        by_contra h0
        have := hpd _ h0
        rw [h1, inner_zero_right] at this
        exact lt_irrefl _ this
      rw [sub_eq_zero.1 h0]
    · have hd := hpd _ (hs.delta_ne_zero hW hr)
      have h1 := ih (hs.next hW hsym hd) (by omega)
      rw [← cgNext_ePe hs hW] at h1
      have h2 := hs.grow hW hd
      rw [hT.ePe] at h2
      exact h2.trans h1

/-- With a positive definite Hessian whose Newton step is inside the region, and the test of the
residual in force, the loop returns an interior step. -/
theorem tcgLoop_newton [FiniteDimensional ℝ V] (hE : ExactAt pb x H) (hW : PreconAt c pb x W)
    (hsym : ∀ u v, ⟪H u, v⟫_ℝ = ⟪u, H v⟫_ℝ) (hpd : ∀ u, u ≠ 0 → 0 < ⟪u, H u⟫_ℝ) {y : V}
    (hy : H y = -g) (hin : ⟪y, W y⟫_ℝ < Delta ^ 2) (hmin : mininner ≤ j)
    (htgt : 0 ≤ tcgTarget c normr0) (n : ℕ) (hnj : 1 ≤ n + j) (hs : KInv g H W j s)
    (hr : s.r ≠ 0) :
    ∃ o, tcgLoop c pb x g Delta normr0 mininner n j s = .ok o ∧ o.stop.interior := by
  induction n generalizing j s with
  | zero =>
    cases j with
    | zero => omega
    | succ j => exact ⟨_, rfl, by simp [TCGStop.interior]⟩
  | succ n ih =>
    obtain ⟨D, N, hT⟩ := hs.inv
    have hd := hpd _ (hs.delta_ne_zero hW hr)
    have hk := hs.next hW hsym hd
    have hlt : (cgNext g H W s).ePe < Delta ^ 2 := by
      rw [cgNext_ePe hs hW]
      exact (hk.le_newton hW hsym hpd hy).trans_lt hin
    unfold tcgLoop
    rw [tcgBody_exact hE hW j hT.Heta, if_neg (by
      rw [not_or, not_le, not_le]; exact ⟨hd, hlt⟩),
      if_neg (not_le.2 (hs.decrease hW hsym hd))]
    by_cases ht : mininner ≤ (j : ℤ) ∧ ‖(cgNext g H W s).r‖ ≤ tcgTarget c normr0
    · rw [if_pos ht]
      refine ⟨_, rfl, ?_⟩
      simp only [TCGStop.interior]
      split <;> simp
    · rw [if_neg ht, if_neg (hs.zr_pos hW hr).ne']
      refine ih (by omega) (by omega) hk fun h0 => ht ⟨by omega, ?_⟩
      rw [h0, norm_zero]
      exact htgt

theorem tcgLoop_model_le (hE : ExactAt pb x H) (hW : PreconAt c pb x W)
    (hsym : ∀ u v, ⟪H u, v⟫_ℝ = ⟪u, H v⟫_ℝ) (n : ℕ) (hs : KInv g H W j s)
    (hb : s.ePe ≤ Delta ^ 2) {o : TCGOut V}
    (h : tcgLoop c pb x g Delta normr0 mininner n j s = .ok o) :
    TPost g H W Delta s.modelValue o := by
  obtain ⟨D, N, hT⟩ := hs.inv
  exact tcgLoop_inv hE hW hsym n j ⟨_, { hT with bound := hb, model_le := le_rfl }⟩ h

theorem tcgLoop_norm_ge (hE : ExactAt pb x H) (hW : PreconAt c pb x W)
    (hsym : ∀ u v, ⟪H u, v⟫_ℝ = ⟪u, H v⟫_ℝ) (n : ℕ) (hs : KInv g H W j s)
    (hb : s.ePe ≤ Delta ^ 2) {o : TCGOut V}
    (h : tcgLoop c pb x g Delta normr0 mininner n j s = .ok o) :
    s.ePe ≤ ⟪o.eta, W o.eta⟫_ℝ := by
  induction n generalizing j s with
  | zero =>
    obtain ⟨D, N, hT⟩ := hs.inv
    cases j with
    | zero => cases h
    | succ j => cases h; exact hT.ePe.le
  | succ n ih =>
    have hpost := tcgLoop_model_le hE hW hsym _ hs hb h
    obtain ⟨D, N, hT⟩ := hs.inv
    unfold tcgLoop at h
    rw [tcgBody_exact hE hW j hT.Heta] at h
    by_cases hbd : ⟪s.delta, H s.delta⟫_ℝ ≤ 0 ∨ Delta ^ 2 ≤ (cgNext g H W s).ePe
    · rw [if_pos hbd] at h
      by_cases h0 : s.dPd = 0
      · rw [if_pos h0] at h
        cases h
      · rw [if_neg h0] at h
        cases h
        have := hpost.boundary (by simp only; split <;> simp)
        rw [this]
        exact hb
    · rw [if_neg hbd] at h
      rw [not_or, not_le, not_le] at hbd
      obtain ⟨hd, hin⟩ := hbd
      have hd0 : s.delta ≠ 0 := by
        rintro h
        rw [h, inner_zero_left] at hd
        exact lt_irrefl _ hd
      rw [if_neg (not_le.2 (hs.decrease hW hsym hd))] at h
      have hg := hs.grow hW hd
      by_cases ht : mininner ≤ (j : ℤ) ∧ ‖(cgNext g H W s).r‖ ≤ tcgTarget c normr0
      · rw [if_pos ht] at h
        cases h
        rw [cgNext_ePe hs hW] at hg
        exact hg
      · rw [if_neg ht, if_neg (hs.zr_pos hW (hs.r_ne_zero hd0)).ne'] at h
        exact hg.trans (ih (hs.next hW hsym hd) hin.le h)

theorem tcgLoop_larger (hE : ExactAt pb x H) (hW : PreconAt c pb x W)
    (hsym : ∀ u v, ⟪H u, v⟫_ℝ = ⟪u, H v⟫_ℝ) (n : ℕ) (hs : KInv g H W j s) {Delta' : ℝ}
    (h0 : 0 ≤ Delta) (hDD : Delta ≤ Delta')
    (hb : s.ePe ≤ Delta ^ 2) {o o' : TCGOut V}
    (h : tcgLoop c pb x g Delta normr0 mininner n j s = .ok o)
    (h' : tcgLoop c pb x g Delta' normr0 mininner n j s = .ok o') :
    quad g H o'.eta ≤ quad g H o.eta ∧ ⟪o.eta, W o.eta⟫_ℝ ≤ ⟪o'.eta, W o'.eta⟫_ℝ := by
  have hsq : Delta ^ 2 ≤ Delta' ^ 2 := by gcongr
  induction n generalizing j s with
  | zero =>
    cases j with
    | zero => cases h
    | succ j =>
      cases h
      cases h'
      exact ⟨le_rfl, le_rfl⟩
  | succ n ih =>
    have hb' := hb.trans hsq
    have hpost := tcgLoop_model_le hE hW hsym _ hs hb h
    have hpost' := tcgLoop_model_le hE hW hsym _ hs hb' h'
    obtain ⟨D, N, hT⟩ := hs.inv
    have hz := hs.zr_nonneg hW
    have hq : ∀ t : ℝ, quad g H (s.eta + t • s.delta)
        = s.modelValue + -(t * s.zr) + t ^ 2 / 2 * ⟪s.delta, H s.delta⟫_ℝ := by
      intro t
      rw [quad_add hsym, ← hT.r, hT.delta_r, ← hT.model]
      ring
    unfold tcgLoop at h h'
    rw [tcgBody_exact hE hW j hT.Heta] at h h'
    by_cases hbd : ⟪s.delta, H s.delta⟫_ℝ ≤ 0 ∨ Delta ^ 2 ≤ (cgNext g H W s).ePe
    · rw [if_pos hbd] at h
      by_cases hp : s.dPd = 0
      · rw [if_pos hp] at h
        cases h
      rw [if_neg hp] at h
      cases h
      have hp : 0 < s.dPd := lt_of_le_of_ne (hs.dPd_nonneg hW) (Ne.symm hp)
      have hbnd := hpost.boundary (by simp only; split <;> simp)
      obtain ⟨t0, t1, t2⟩ := tau_spec (b := s.ePd) hp hb
      obtain ⟨t0', t1', t2'⟩ := tau_spec (b := s.ePd) hp hb'
      have htt : tauOf Delta s ≤ tauOf Delta' s := by
        unfold tauOf
        gcongr
      change 0 ≤ tauOf Delta s at t0
      change 0 ≤ tauOf Delta' s at t0'
      change ∀ a, 0 < a → _ → tauOf Delta s ≤ a at t2
      change ∀ a, 0 < a → _ → tauOf Delta' s ≤ a at t2'
      by_cases hbd' : ⟪s.delta, H s.delta⟫_ℝ ≤ 0 ∨ Delta' ^ 2 ≤ (cgNext g H W s).ePe
      · rw [if_pos hbd', if_neg hp.ne'] at h'
        cases h'
        have hbnd' := hpost'.boundary (by simp only; split <;> simp)
        refine ⟨?_, by rw [hbnd, hbnd']; exact hsq⟩
        simp only
        rw [hq, hq]
        generalize tauOf Delta s = a at *
        generalize tauOf Delta' s = b at *
        rcases le_or_gt ⟪s.delta, H s.delta⟫_ℝ 0 with hd | hd
        · have e1 : 0 ≤ (b - a) * s.zr := mul_nonneg (by linarith) hz
          have e2 : (b ^ 2 - a ^ 2) * ⟪s.delta, H s.delta⟫_ℝ ≤ 0 :=
            mul_nonpos_of_nonneg_of_nonpos (sub_nonneg.2 (by gcongr)) hd
          linarith
        · have hex := hbd'.resolve_left (not_le.2 hd)
          have hd0 : s.delta ≠ 0 := by
            rintro h
            rw [h, inner_zero_left] at hd
            exact lt_irrefl _ hd
          have hzp := hs.zr_pos hW (hs.r_ne_zero hd0)
          have hle := t2' _ (div_pos hzp hd) hex
          rw [le_div_iff₀ hd] at hle
          have e1 : a * ⟪s.delta, H s.delta⟫_ℝ ≤ b * ⟪s.delta, H s.delta⟫_ℝ :=
            mul_le_mul_of_nonneg_right htt hd.le
          have e2 : 0 ≤ (b - a) * (2 * s.zr - (a * ⟪s.delta, H s.delta⟫_ℝ
              + b * ⟪s.delta, H s.delta⟫_ℝ)) := mul_nonneg (by linarith) (by linarith)
          nlinarith
      · rw [if_neg hbd'] at h'
        rw [not_or, not_le, not_le] at hbd'
        obtain ⟨hd, hin⟩ := hbd'
        have hex := hbd.resolve_left (not_le.2 hd)
        have hd0 : s.delta ≠ 0 := by
          rintro h
          rw [h, inner_zero_left] at hd
          exact lt_irrefl _ hd
        have hfin : quad g H o'.eta ≤ (cgNext g H W s).modelValue ∧
            (cgNext g H W s).ePe ≤ ⟪o'.eta, W o'.eta⟫_ℝ := by
          rw [if_neg (not_le.2 (hs.decrease hW hsym hd))] at h'
          by_cases ht : mininner ≤ (j : ℤ) ∧ ‖(cgNext g H W s).r‖ ≤ tcgTarget c normr0
          · rw [if_pos ht] at h'
            cases h'
            exact ⟨le_rfl, (cgNext_ePe hs hW).le⟩
          · rw [if_neg ht, if_neg (hs.zr_pos hW (hs.r_ne_zero hd0)).ne'] at h'
            have hk := hs.next hW hsym hd
            exact ⟨(tcgLoop_model_le hE hW hsym _ hk hin.le h').model_le,
              tcgLoop_norm_ge hE hW hsym _ hk hin.le h'⟩
        refine ⟨hfin.1.trans ?_, by rw [hbnd]; exact hex.trans hfin.2⟩
        change quad g H (s.eta + (s.zr / ⟪s.delta, H s.delta⟫_ℝ) • s.delta)
          ≤ quad g H (s.eta + tauOf Delta s • s.delta)
        rw [hq, hq]
        have e1 : s.modelValue + -(s.zr / ⟪s.delta, H s.delta⟫_ℝ * s.zr)
            + (s.zr / ⟪s.delta, H s.delta⟫_ℝ) ^ 2 / 2 * ⟪s.delta, H s.delta⟫_ℝ
            + (tauOf Delta s * ⟪s.delta, H s.delta⟫_ℝ - s.zr) ^ 2 / (2 * ⟪s.delta, H s.delta⟫_ℝ)
            = s.modelValue + -(tauOf Delta s * s.zr)
              + tauOf Delta s ^ 2 / 2 * ⟪s.delta, H s.delta⟫_ℝ := by
          field_simp
          ring
        rw [← e1]
        have : 0 ≤ (tauOf Delta s * ⟪s.delta, H s.delta⟫_ℝ - s.zr) ^ 2
          / (2 * ⟪s.delta, H s.delta⟫_ℝ) := by positivity
        linarith
    · have hbd' : ¬ (⟪s.delta, H s.delta⟫_ℝ ≤ 0 ∨ Delta' ^ 2 ≤ (cgNext g H W s).ePe) := by
        rw [not_or, not_le, not_le] at hbd ⊢
        exact ⟨hbd.1, hbd.2.trans_le hsq⟩
      rw [if_neg hbd] at h
      rw [if_neg hbd'] at h'
      rw [not_or, not_le, not_le] at hbd
      obtain ⟨hd, hin⟩ := hbd
      have hd0 : s.delta ≠ 0 := by
        rintro h
        rw [h, inner_zero_left] at hd
        exact lt_irrefl _ hd
      rw [if_neg (not_le.2 (hs.decrease hW hsym hd))] at h h'
      by_cases ht : mininner ≤ (j : ℤ) ∧ ‖(cgNext g H W s).r‖ ≤ tcgTarget c normr0
      · rw [if_pos ht] at h h'
        cases h
        cases h'
        exact ⟨le_rfl, le_rfl⟩
      · rw [if_neg ht, if_neg (hs.zr_pos hW (hs.r_ne_zero hd0)).ne'] at h h'
        exact ih (hs.next hW hsym hd) hin.le h h'

end

/-! ### C145 -/

section
variable {c : TRCfg ℝ} {pb : Prob ℝ P V} {x : P} {H : V →ₗ[ℝ] V} {W : V ≃ₗ[ℝ] V} {g : V}
  {Delta : ℝ} {mininner maxinner : ℤ} {o : TCGOut V}

/-- **C145** (optimality) The returned step lies in the Krylov space generated by the number of
Hessian products that were spent; if it was not cut off at the boundary of the region, it is the
only minimiser of the model over that space, and strictly inside the region. -/
theorem C145_krylov_minimum (hE : ExactAt pb x H) (hW : PreconAt c pb x W)
    (hsym : ∀ u v, ⟪H u, v⟫_ℝ = ⟪u, H v⟫_ℝ)
    (h : tcg c pb x g (pb.M.zeroVector x) Delta mininner maxinner = .ok o) :
    o.eta ∈ krylovSpace g H W o.hessCalls ∧
    (o.stop.interior → ⟪o.eta, W o.eta⟫_ℝ < Delta ^ 2 ∧
      ∀ u ∈ krylovSpace g H W o.hessCalls, u ≠ o.eta → quad g H o.eta < quad g H u) := by
  have hc : o.hessCalls = o.j + 1 := by
    unfold tcg at h
    exact tcgLoop_calls_eq _ _ h
  have hp := tcg_krylov hE hW hsym h
  rw [hc]
  refine ⟨hp.mem, fun hi => ⟨hp.inside hi, fun u hu hne => ?_⟩⟩
  have hv : u - o.eta ∈ krylovSpace g H W (o.j + 1) := Submodule.sub_mem _ hu hp.mem
  have h1 := quad_add (g := g) hsym o.eta (u - o.eta) 1
  rw [one_smul, add_sub_cancel, hp.perp hi _ hv] at h1
  have h2 := hp.pos hi _ hv (sub_ne_zero.2 hne)
  rw [h1]
  linarith

/-- **C145** (cost) A call that returns has used at most as many Hessian products as the tangent
space has dimensions, whatever `maxinner`. -/
theorem C145_at_most_dimension [FiniteDimensional ℝ V] (hE : ExactAt pb x H)
    (hW : PreconAt c pb x W) (hsym : ∀ u v, ⟪H u, v⟫_ℝ = ⟪u, H v⟫_ℝ)
    (h : tcg c pb x g (pb.M.zeroVector x) Delta mininner maxinner = .ok o) :
    o.hessCalls ≤ Module.finrank ℝ V := by
  have hc : o.hessCalls = o.j + 1 := by
    unfold tcg at h
    exact tcgLoop_calls_eq _ _ h
  rw [hc]
  exact (tcg_krylov hE hW hsym h).lt_dim inferInstance

/-- **C145** (reasons) The model is never reported to have increased; a reported target means that
the residual of the Newton equation is at most `‖g‖ * min(‖g‖ ** theta, kappa)`; and with
`maxinner` at least the dimension (the default) the limit on the number of inner iterations is
not what stops the solver. -/
theorem C145_stopping_reason [FiniteDimensional ℝ V] (hE : ExactAt pb x H) (hW : PreconAt c pb x W)
    (hsym : ∀ u v, ⟪H u, v⟫_ℝ = ⟪u, H v⟫_ℝ)
    (h : tcg c pb x g (pb.M.zeroVector x) Delta mininner maxinner = .ok o) :
    o.stop ≠ .modelIncreased ∧
    ((o.stop = .reachedTargetLinear ∨ o.stop = .reachedTargetSuperlinear) →
      mininner < o.hessCalls ∧ ‖g + H o.eta‖ ≤ ‖g‖ * min (‖g‖ ^ c.theta) c.kappa) ∧
    (0 ≤ c.kappa → mininner < Module.finrank ℝ V → (Module.finrank ℝ V : ℤ) ≤ maxinner →
      o.stop ≠ .maxInnerIter) := by
  have hc : o.hessCalls = o.j + 1 := by
    unfold tcg at h
    exact tcgLoop_calls_eq _ _ h
  have hp := tcg_krylov hE hW hsym h
  refine ⟨hp.notInc, fun ht => ?_, fun hk hmin hmax hs => ?_⟩
  · have := hp.target ht
    exact ⟨by omega, this.2⟩
  · have hi : o.stop.interior := by rw [hs]; simp [TCGStop.interior]
    obtain ⟨h1, h2⟩ := hp.last hs
    have h3 := hp.lt_dim inferInstance
    have h4 := hp.rank hi
    have htop : krylovSpace g H W (o.j + 1) = ⊤ :=
      Submodule.eq_top_of_finrank_eq (by rw [h4]; omega)
    have h5 : g + H o.eta = 0 := by
      have := hp.perp hi (g + H o.eta) (by rw [htop]; exact Submodule.mem_top)
      exact inner_self_eq_zero.1 this
    refine h2 ⟨by omega, ?_⟩
    rw [h5, norm_zero]
    exact mul_nonneg (norm_nonneg _) (le_min (Real.rpow_nonneg (norm_nonneg _) _) hk)

/-- If the solver stops inside the region, it has solved the Newton equation to the requested
accuracy. -/
theorem newton_of_interior [FiniteDimensional ℝ V] (hE : ExactAt pb x H) (hW : PreconAt c pb x W)
    (hsym : ∀ u v, ⟪H u, v⟫_ℝ = ⟪u, H v⟫_ℝ) (hpd : ∀ u, u ≠ 0 → 0 < ⟪u, H u⟫_ℝ) {y : V}
    (hy : H y = -g) (hk : 0 ≤ c.kappa) (hmin : mininner < Module.finrank ℝ V)
    (hmax : (Module.finrank ℝ V : ℤ) ≤ maxinner)
    (ho : tcg c pb x g (pb.M.zeroVector x) Delta mininner maxinner = .ok o)
    (hi : o.stop.interior) :
    ‖g + H o.eta‖ ≤ ‖g‖ * min (‖g‖ ^ c.theta) c.kappa ∧ (c.kappa = 0 → o.eta = y) := by
  obtain ⟨s1, s2, s3⟩ := C145_stopping_reason hE hW hsym ho
  have s3 := s3 hk hmin hmax
  have hres : ‖g + H o.eta‖ ≤ ‖g‖ * min (‖g‖ ^ c.theta) c.kappa := by
    refine (s2 ?_).2
    obtain ⟨i1, i2⟩ := hi
    cases hst : o.stop <;> simp_all
  refine ⟨hres, fun h0 => ?_⟩
  have h1 : g + H o.eta = 0 := by
    rw [h0, min_eq_right (Real.rpow_nonneg (norm_nonneg _) _), mul_zero] at hres
    exact norm_le_zero_iff.1 hres
  have h2 : H (o.eta - y) = 0 := by
    rw [map_sub, hy, sub_neg_eq_add, add_comm, h1]
  by_contra hne
  have := hpd _ (sub_ne_zero.2 hne)
  rw [h2, inner_zero_right] at this
  exact lt_irrefl _ this

/-- **C145** (Newton) If the Hessian is positive definite, its Newton step lies inside the region
and the test of the residual applies from the first inner iteration on, the solver returns a step
that solves the Newton equation up to the requested accuracy, and with `kappa = 0` the Newton
step itself. -/
theorem C145_newton [FiniteDimensional ℝ V] (hE : ExactAt pb x H) (hW : PreconAt c pb x W)
    (hsym : ∀ u v, ⟪H u, v⟫_ℝ = ⟪u, H v⟫_ℝ) (hpd : ∀ u, u ≠ 0 → 0 < ⟪u, H u⟫_ℝ) {y : V}
    (hy : H y = -g) (hin : ⟪y, W y⟫_ℝ < Delta ^ 2) (hg : g ≠ 0) (hk : 0 ≤ c.kappa)
    (hmin : mininner ≤ 0) (hmax : (Module.finrank ℝ V : ℤ) ≤ maxinner) :
    ∃ o, tcg c pb x g (pb.M.zeroVector x) Delta mininner maxinner = .ok o ∧
      ‖g + H o.eta‖ ≤ ‖g‖ * min (‖g‖ ^ c.theta) c.kappa ∧ (c.kappa = 0 → o.eta = y) := by
  have hdim : 0 < Module.finrank ℝ V := Module.finrank_pos_iff_exists_ne_zero.2 ⟨g, hg⟩
  have htgt : 0 ≤ tcgTarget c ‖g‖ :=
    mul_nonneg (norm_nonneg _) (le_min (Real.rpow_nonneg (norm_nonneg _) _) hk)
  obtain ⟨o, ho, hi⟩ : ∃ o, tcg c pb x g (pb.M.zeroVector x) Delta mininner maxinner = .ok o ∧
      o.stop.interior := by
    unfold tcg
    rw [tcgInit_exact hE hW]
    have hn : (PyNum.sqrt (pb.M.inner x g g) : ℝ) = ‖g‖ := by
      simp [PyNum.sqrt, hE.inner]
    simp only [hn]
    exact tcgLoop_newton hE hW hsym hpd hy hin (by omega) htgt _ (by omega) (kinv_init g H W) hg
  exact ⟨o, ho, newton_of_interior hE hW hsym hpd hy hk (by omega) hmax ho hi⟩

/-- **C145** (Newton, default) With the default `mininner = 1` the same holds unless the first
inner iteration happens to solve the Newton equation, that is, unless the Hessian maps the
preconditioned gradient to a multiple of the gradient (see C102 for that case). -/
theorem C145_newton_default [FiniteDimensional ℝ V] (hE : ExactAt pb x H) (hW : PreconAt c pb x W)
    (hsym : ∀ u v, ⟪H u, v⟫_ℝ = ⟪u, H v⟫_ℝ) (hpd : ∀ u, u ≠ 0 → 0 < ⟪u, H u⟫_ℝ) {y : V}
    (hy : H y = -g) (hin : ⟪y, W y⟫_ℝ < Delta ^ 2) (hne : ∀ a : ℝ, H (W.symm g) ≠ a • g)
    (hk : 0 ≤ c.kappa) (hmax : (Module.finrank ℝ V : ℤ) ≤ maxinner) :
    ∃ o, tcg c pb x g (pb.M.zeroVector x) Delta 1 maxinner = .ok o ∧
      ‖g + H o.eta‖ ≤ ‖g‖ * min (‖g‖ ^ c.theta) c.kappa ∧ (c.kappa = 0 → o.eta = y) := by
  have hg : g ≠ 0 := by
    rintro rfl
    exact hne 0 (by simp)
  have htgt : 0 ≤ tcgTarget c ‖g‖ :=
    mul_nonneg (norm_nonneg _) (le_min (Real.rpow_nonneg (norm_nonneg _) _) hk)
  set s : TCGState ℝ V := ⟨0, 0, g, 0, ⟪W.symm g, g⟫_ℝ, ⟪W.symm g, g⟫_ℝ, -W.symm g, 0, 0⟩ with hsdef
  have hs : KInv g H W 0 s := kinv_init g H W
  have hr : s.r ≠ 0 := hg
  have hd := hpd _ (hs.delta_ne_zero hW hr)
  have hk1 := hs.next hW hsym hd
  have hr1 : (cgNext g H W s).r ≠ 0 := by
    intro h0
    have h1 : g + (s.zr / ⟪s.delta, H s.delta⟫_ℝ) • H (-W.symm g) = 0 := h0
    have hz := hs.zr_pos hW hr
    have ha : s.zr / ⟪s.delta, H s.delta⟫_ℝ ≠ 0 := (div_pos hz hd).ne'
    generalize s.zr / ⟪s.delta, H s.delta⟫_ℝ = a at *
    refine hne a⁻¹ ?_
    rw [map_neg, smul_neg, add_neg_eq_zero] at h1
    nth_rewrite 2 [h1]
    rw [smul_smul, inv_mul_cancel₀ ha, one_smul]
  have hdim : 2 ≤ Module.finrank ℝ V := hk1.lt_dim (hk1.delta_ne_zero hW hr1)
  have hlt : (cgNext g H W s).ePe < Delta ^ 2 := by
    rw [cgNext_ePe hs hW]
    exact (hk1.le_newton hW hsym hpd hy).trans_lt hin
  obtain ⟨o, ho, hi⟩ : ∃ o, tcg c pb x g (pb.M.zeroVector x) Delta 1 maxinner = .ok o ∧
      o.stop.interior := by
    unfold tcg
    rw [tcgInit_exact hE hW]
    have hn : (PyNum.sqrt (pb.M.inner x g g) : ℝ) = ‖g‖ := by
      simp [PyNum.sqrt, hE.inner]
    simp only [hn]
    obtain ⟨n, hn⟩ : ∃ n, maxinner.toNat = n + 1 := ⟨maxinner.toNat - 1, by omega⟩
    rw [hn, ← hsdef]
    unfold tcgLoop
    rw [tcgBody_exact hE hW 0 (by simp [hsdef]), if_neg (by
      rw [not_or, not_le, not_le]; exact ⟨hd, hlt⟩),
      if_neg (not_le.2 (hs.decrease hW hsym hd)), if_neg (by simp),
      if_neg (hs.zr_pos hW hr).ne']
    exact tcgLoop_newton hE hW hsym hpd hy hin (by simp) htgt _ (by omega) hk1 hr1
  exact ⟨o, ho, newton_of_interior hE hW hsym hpd hy hk (by omega) hmax ho hi⟩

/-- **C145** (radius) A larger region never gives a worse model value nor a shorter step. -/
theorem C145_larger_region (hE : ExactAt pb x H) (hW : PreconAt c pb x W)
    (hsym : ∀ u v, ⟪H u, v⟫_ℝ = ⟪u, H v⟫_ℝ) {Delta' : ℝ} (h0 : 0 ≤ Delta) (hDD : Delta ≤ Delta')
    {o' : TCGOut V}
    (h : tcg c pb x g (pb.M.zeroVector x) Delta mininner maxinner = .ok o)
    (h' : tcg c pb x g (pb.M.zeroVector x) Delta' mininner maxinner = .ok o') :
    quad g H o'.eta ≤ quad g H o.eta ∧ ⟪o.eta, W o.eta⟫_ℝ ≤ ⟪o'.eta, W o'.eta⟫_ℝ := by
  unfold tcg at h h'
  rw [tcgInit_exact hE hW] at h h'
  exact tcgLoop_larger hE hW hsym _ (kinv_init g H W) h0 hDD (sq_nonneg _) h h'

end

section
variable {E : Type*} {c : TRCfg ℝ} {pb : Prob ℝ P E} {x : P} {g eta : E} {Delta normr0 : ℝ}
  {mininner maxinner : ℤ} {o : TCGOut E}

theorem tcgBody_radius {Delta' : ℝ} (h0 : 0 ≤ Delta) (hDD : Delta ≤ Delta') {j : ℕ}
    {s : TCGState ℝ E} {r : Ctl (TCGState ℝ E) (TCGOut E)}
    (h : tcgBody c pb x g Delta normr0 mininner j s = .ok r)
    (hr : ∀ o, r = .brk o → o.stop.interior) :
    tcgBody c pb x g Delta' normr0 mininner j s = .ok r := by
  have hpow : ∀ a : ℝ, pow a (lit 2) = a ^ 2 := by
    intro a
    simp only [PyNum.pow, PyNum.lit]
    norm_num
  unfold tcgBody at h ⊢
  simp only [hpow] at h ⊢
  split at h
  · cases h
  · rename_i alpha ePeNew hpre
    split at h
    · split at h
      · cases h
      · cases h
        have := hr _ rfl
        simp only [TCGStop.interior] at this
        split at this <;> simp at this
    · rename_i hc
      have hc' : ¬ (PyNum.le (pb.M.inner x s.delta (pb.hess x s.delta)) (lit 0)
          || PyNum.le (Delta' ^ 2) ePeNew) = true := by
        simp only [Bool.or_eq_true, not_or, PyNum.le, decide_eq_true_eq, not_le] at hc ⊢
        exact ⟨hc.1, hc.2.trans_le (by gcongr)⟩
      rw [if_neg hc']
      exact h

/-- **C145** (interior steps) For every cost function, gradient, Hessian, preconditioner and start
(linear or not): a step that was not cut off at the boundary is also the result for every larger
region. -/
theorem C145_interior_any_radius {Delta' : ℝ} (h0 : 0 ≤ Delta) (hDD : Delta ≤ Delta')
    (h : tcg c pb x g eta Delta mininner maxinner = .ok o) (hi : o.stop.interior) :
    tcg c pb x g eta Delta' mininner maxinner = .ok o := by
  unfold tcg at h ⊢
  simp only at h ⊢
  generalize PyNum.sqrt (pb.M.inner x (tcgInit c pb x g eta).r (tcgInit c pb x g eta).r) = r0 at *
  generalize tcgInit c pb x g eta = s at *
  generalize maxinner.toNat = n at *
  generalize 0 = j at *
  induction n generalizing j s with
  | zero => cases j <;> exact h
  | succ n ih =>
    unfold tcgLoop at h ⊢
    split at h
    · cases h
    · rename_i o' ho
      cases h
      rw [tcgBody_radius h0 hDD ho (by rintro _ ⟨⟩; exact hi)]
    · rename_i s' hs'
      rw [tcgBody_radius h0 hDD hs' (by rintro _ ⟨⟩)]
      exact ih _ _ h

end

/-! ### Examples -/

/-- `Euclidean` geometry on any inner product space (manifolds/euclidean.py:7-61), and a problem
with the given gradient and Hessian at every point. -/
noncomputable def linProb (g : V) (H : V →ₗ[ℝ] V) : Prob ℝ V V where
  M := { dim := 0, norm := fun _ v => ‖v‖, inner := fun _ u v => ⟪u, v⟫_ℝ,
         retraction := fun x v => x + v, transport := fun _ _ v => v, log := fun x y => y - x,
         pairMean := fun x y => (1 / 2 : ℝ) • (x + y), zeroVector := fun _ => 0,
         toTangent := fun _ v => v, add := fun a b => a + b, sub := fun a b => a - b,
         neg := fun a => -a, smul := fun a v => a • v }
  cost x := quad g H x
  grad _ := g
  hess _ v := H v
  precon _ v := v

theorem linProb_exact (g : V) (H : V →ₗ[ℝ] V) (x : V) : ExactAt (linProb g H) x H :=
  ⟨fun _ _ => rfl, rfl, fun _ => rfl, fun _ _ => rfl, fun _ => rfl, fun _ _ => rfl, fun _ => rfl⟩

theorem linProb_precon (c : TRCfg ℝ) (g : V) (H : V →ₗ[ℝ] V) (x : V) :
    PreconAt c (linProb g H) x (LinearEquiv.refl ℝ V) :=
  ⟨fun _ _ => rfl, fun u hu => by
    rw [LinearEquiv.refl_apply, real_inner_self_eq_norm_sq]; positivity,
    fun v => by simp [linProb]⟩

/-- The map with eigenvalues 2 and 1 on the plane. -/
noncomputable def planeH : ℂ →ₗ[ℝ] ℂ where
  toFun z := ⟨2 * z.re, z.im⟩
  map_add' a b := by apply Complex.ext <;> simp [mul_add]
  map_smul' a b := by apply Complex.ext <;> simp; ring

theorem planeH_symm (u v : ℂ) : ⟪planeH u, v⟫_ℝ = ⟪u, planeH v⟫_ℝ := by
  simp [Complex.inner, planeH]
  ring

theorem planeH_pos (u : ℂ) (hu : u ≠ 0) : 0 < ⟪u, planeH u⟫_ℝ := by
  have : 0 < u.re ^ 2 + u.im ^ 2 := by
    by_contra h
    refine hu (Complex.ext ?_ ?_)
    · simp only [Complex.zero_re]; nlinarith [sq_nonneg u.re, sq_nonneg u.im]
    · simp only [Complex.zero_im]; nlinarith [sq_nonneg u.re, sq_nonneg u.im]
  simp [Complex.inner, planeH]
  nlinarith [sq_nonneg u.re]

/-- The hypotheses of the theorems are met in the plane, with the gradient `(1, 1)` and the Newton
step `(-1/2, -1)`, by the default `mininner` and radius 2; the two inner iterations that the
dimension allows are necessary and sufficient for the exact solution. -/
example : ∃ o, tcg { realTR with kappa := 0 } (linProb ⟨1, 1⟩ planeH) 0 (⟨1, 1⟩ : ℂ)
    ((linProb ⟨1, 1⟩ planeH).M.zeroVector 0) 2 1 2 = .ok o ∧ o.eta = ⟨-1 / 2, -1⟩ ∧
    o.hessCalls = 2 := by
  have hy : planeH ⟨-1 / 2, -1⟩ = -(⟨1, 1⟩ : ℂ) := by
    apply Complex.ext <;> simp [planeH]
    norm_num
  obtain ⟨o, ho, -, h2⟩ := C145_newton_default (Delta := 2) (maxinner := 2)
    (c := { realTR with kappa := 0 }) (linProb_exact (⟨1, 1⟩ : ℂ) planeH 0) (linProb_precon _ _ _ _)
    planeH_symm planeH_pos hy (by
      rw [LinearEquiv.refl_apply]
      simp only [Complex.inner, Complex.mul_re, Complex.conj_re, Complex.conj_im]
      norm_num)
    (by
      intro a h
      have h1 := congrArg Complex.re h
      have h2 := congrArg Complex.im h
      simp [planeH] at h1 h2
      linarith) le_rfl (by simp [Complex.finrank_real_complex])
  have h2 := h2 rfl
  refine ⟨o, ho, h2, le_antisymm ?_ ?_⟩
  · have := C145_at_most_dimension (linProb_exact (⟨1, 1⟩ : ℂ) planeH 0) (linProb_precon _ _ _ _)
      planeH_symm ho
    simpa [Complex.finrank_real_complex] using this
  · by_contra hlt
    have h1 := (C30_inner_bound ho).1
    have h3 := (C145_krylov_minimum (linProb_exact (⟨1, 1⟩ : ℂ) planeH 0) (linProb_precon _ _ _ _)
      planeH_symm ho).1
    have h4 : o.hessCalls = 1 := by omega
    rw [h4, h2] at h3
    have h5 : krylovSpace (⟨1, 1⟩ : ℂ) planeH (LinearEquiv.refl ℝ ℂ) 1
        = Submodule.span ℝ {(⟨1, 1⟩ : ℂ)} := by
      have : Set.Iio 1 = ({0} : Set ℕ) := by ext; simp
      simp [krylovSpace, this]
    rw [h5] at h3
    obtain ⟨a, ha⟩ := Submodule.mem_span_singleton.1 h3
    have e1 := congrArg Complex.re ha
    have e2 := congrArg Complex.im ha
    simp at e1 e2
    linarith

end Verif.Opt
