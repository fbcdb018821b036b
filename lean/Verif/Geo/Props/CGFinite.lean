/-
C149: with an exact line search, conjugate gradient on a strictly convex quadratic function is the
linear conjugate gradient method, whatever the rule for beta.
-/
import Mathlib.LinearAlgebra.FiniteDimensional.Lemmas
import Verif.Base.Num
import Verif.Opt.Model.CG
import Verif.Geo.Spec
import Verif.Geo.Model.OptMfd
import Verif.Geo.Props.Euclidean
import Verif.Geo.Props.OptMfd
import Verif.Geo.Props.NewtonEuclidean

namespace Verif.Geo
open Verif.Opt PyNum

variable {V S : Type*} [AddCommGroup V] [Module ℝ V]

/-! ### Specification -/

/-- The problem of minimising a strictly convex quadratic function over a Euclidean space with inner
product `B`, with the gradient of the function and a linear symmetric positive definite
preconditioner `W` (the identity if none is supplied). -/
structure FlatQuadratic (pb : Prob ℝ V V) (B : V → V → ℝ) (H W : V →ₗ[ℝ] V) : Prop where
  isInner : IsInner B
  inner (x a b : V) : pb.M.inner x a b = B a b
  norm (x a : V) : pb.M.norm x a = Real.sqrt (B a a)
  retraction (x v : V) : pb.M.retraction x v = x + v
  transport (x y v : V) : pb.M.transport x y v = v
  add (v w : V) : pb.M.add v w = v + w
  sub (v w : V) : pb.M.sub v w = v - w
  neg (v : V) : pb.M.neg v = -v
  smul (c : ℝ) (v : V) : pb.M.smul c v = c • v
  cost (x v : V) : pb.cost (x + v) = pb.cost x + B (pb.grad x) v + 1 / 2 * B v (H v)
  grad (x v : V) : pb.grad (x + v) = pb.grad x + H v
  H_symm (a b : V) : B (H a) b = B a (H b)
  H_pos (a : V) : a ≠ 0 → 0 < B a (H a)
  precon (x v : V) : pb.precon x v = W v
  W_symm (a b : V) : B (W a) b = B a (W b)
  W_pos (a : V) : a ≠ 0 → 0 < B a (W a)

/-- A line searcher that finds the minimiser along every descent direction. -/
def ExactSearch (ls : LineSearcher ℝ V V S) (pb : Prob ℝ V V) (B : V → V → ℝ) : Prop :=
  ∀ mem x d, B (pb.grad x) d < 0 →
    ∃ o, ls.search mem pb.cost pb.M x d (pb.cost x) (B (pb.grad x) d) = .ok o ∧
      ∃ a : ℝ, o.newx = x + a • d ∧ B (pb.grad o.newx) d = 0

/-- The space spanned by `(W H)^i W g` for `i < n`. -/
def flatKrylov (g : V) (H W : V →ₗ[ℝ] V) (n : ℕ) : Submodule ℝ V :=
  Submodule.span ℝ ((fun i : ℕ => (fun v => W (H v))^[i] (W g)) '' Set.Iio n)

/-! ### The sequences of gradients and directions -/

/-- Gradients `g` and directions `d` of the linear conjugate gradient method up to step `k`. -/
structure CGHist (B : V → V → ℝ) (H W : V →ₗ[ℝ] V) (g d : ℕ → V) (k : ℕ) : Prop where
  orth {i j : ℕ} : i < j → j ≤ k → B (g j) (d i) = 0
  conj {i j : ℕ} : i < j → j ≤ k → B (H (d i)) (d j) = 0
  slope {i : ℕ} : i ≤ k → B (g i) (d i) = -B (g i) (W (g i))
  step {i : ℕ} : i < k → ∃ a : ℝ, a ≠ 0 ∧ g (i + 1) = g i + a • H (d i)
  first : d 0 = -W (g 0)
  dir {i : ℕ} : i < k → ∃ b : ℝ, d (i + 1) = -W (g (i + 1)) + b • d i
  ne {i : ℕ} : i < k → g i ≠ 0

section
variable {B : V → V → ℝ} {H W : V →ₗ[ℝ] V} {g d : ℕ → V} {k : ℕ}

/-- A vector orthogonal to the directions is orthogonal to the preconditioned gradients. -/
theorem CGHist.perp (h : CGHist B H W g d k) (hB : IsInner B) {v : V} {j : ℕ} (hj : j ≤ k)
    (hv : ∀ i ≤ j, B v (d i) = 0) : B v (W (g j)) = 0 := by
  cases j with
  | zero =>
    have := hv 0 le_rfl
    rw [h.first, hB.neg_right] at this
    linarith
  | succ j =>
    obtain ⟨b, hb⟩ := h.dir (i := j) (by omega)
    have := hv (j + 1) le_rfl
    rw [hb, hB.add_right, hB.neg_right, hB.smul_right, hv j (by omega)] at this
    linarith

theorem CGHist.grads (h : CGHist B H W g d k) (hB : IsInner B) {i j : ℕ} (hij : i < j)
    (hj : j ≤ k) : B (g j) (W (g i)) = 0 :=
  h.perp hB (by omega) fun l hl => h.orth (by omega) hj

/-- One more step of the method. -/
theorem CGHist.succ (h : CGHist B H W g d k) (hB : IsInner B)
    (hWs : ∀ a b, B (W a) b = B a (W b)) (hWp : ∀ a, a ≠ 0 → 0 < B a (W a)) (hk : g k ≠ 0)
    (hHs : ∀ a b, B (H a) b = B a (H b))
    {a : ℝ} {g' : V} (hg : g' = g k + a • H (d k)) (ho : B g' (d k) = 0) :
    a ≠ 0 ∧ (∀ i ≤ k, B g' (W (g i)) = 0) ∧
    CGHist B H W (fun i => if i ≤ k then g i else g')
      (fun i => if i ≤ k then d i else
        -W g' + (B g' (W g') / B (g k) (W (g k))) • d k) (k + 1) := by
  have hp := hWp _ hk
  have ha1 : a * B (H (d k)) (d k) = B (g k) (W (g k)) := by
    rw [hg, hB.add_left, hB.smul_left, h.slope le_rfl] at ho
    linarith
  have ha : a ≠ 0 := by
    rintro rfl
    rw [zero_mul] at ha1
    linarith
  have hod : ∀ i ≤ k, B g' (d i) = 0 := by
    intro i hi
    rcases hi.eq_or_lt with rfl | hi
    · exact ho
    · rw [hg, hB.add_left, hB.smul_left, h.orth hi le_rfl, hHs, hB.symm, h.conj hi le_rfl]
      ring
  have hog : ∀ i ≤ k, B g' (W (g i)) = 0 := fun i hi =>
    h.perp hB hi fun l hl => hod l (hl.trans hi)
  have hgo : ∀ i ≤ k, B (g i) (W g') = 0 := fun i hi => by
    rw [← hWs, hB.symm, hog i hi]
  refine ⟨ha, hog, ?_⟩
  obtain ⟨c, hc⟩ : ∃ c, c = B g' (W g') / B (g k) (W (g k)) := ⟨_, rfl⟩
  have hc' : c * B (g k) (W (g k)) = B g' (W g') := by
    rw [hc, div_mul_cancel₀ _ hp.ne']
  rw [← hc]
  obtain ⟨d', hd'⟩ : ∃ d', d' = -W g' + c • d k := ⟨_, rfl⟩
  rw [← hd']
  have hnk : ¬ k + 1 ≤ k := by omega
  have hconj : ∀ i ≤ k, B (H (d i)) d' = 0 := by
    intro i hi
    rw [hd', hB.add_right, hB.neg_right, hB.smul_right]
    rcases hi.eq_or_lt with rfl | hi
    · have e1 : a * B (H (d i)) (W g') = B g' (W g') := by
        have : B g' (W g') = B (g i) (W g') + a * B (H (d i)) (W g') := by
          conv_lhs => rw [hg]
          rw [hB.add_left, hB.smul_left, ← hg]
        rw [hgo i le_rfl] at this
        linarith
      have : a * (-B (H (d i)) (W g') + c * B (H (d i)) (d i)) = 0 := by
        rw [mul_add, mul_neg, e1, ← hc', ← ha1]; ring
      rcases mul_eq_zero.mp this with h0 | h0
      · exact absurd h0 ha
      · exact h0
    · obtain ⟨a', ha', he⟩ := h.step hi
      have e1 : a' * B (H (d i)) (W g') = 0 := by
        have := hgo (i + 1) hi
        rw [he, hB.add_left, hB.smul_left, hgo i hi.le] at this
        linarith
      rcases mul_eq_zero.mp e1 with h0 | h0
      · exact absurd h0 ha'
      · rw [h0, h.conj hi le_rfl]; ring
  refine ⟨fun {i j} hij hj => ?_, fun {i j} hij hj => ?_, fun {i} hi => ?_, fun {i} hi => ?_, ?_,
    fun {i} hi => ?_, fun {i} hi => ?_⟩
  · have hi : i ≤ k := by omega
    rw [if_pos hi]
    by_cases hjk : j ≤ k
    · rw [if_pos hjk]; exact h.orth hij hjk
    · rw [if_neg hjk]; exact hod i hi
  · have hi : i ≤ k := by omega
    rw [if_pos hi]
    by_cases hjk : j ≤ k
    · rw [if_pos hjk]; exact h.conj hij hjk
    · rw [if_neg hjk]; exact hconj i hi
  · by_cases hik : i ≤ k
    · rw [if_pos hik, if_pos hik]; exact h.slope hik
    · rw [if_neg hik, if_neg hik, hd', hB.add_right, hB.neg_right, hB.smul_right, ho]; ring
  · have hik : i ≤ k := by omega
    rw [if_pos hik, if_pos hik]
    by_cases hjk : i + 1 ≤ k
    · rw [if_pos hjk]; exact h.step (by omega)
    · have : i = k := by omega
      subst this
      rw [if_neg hnk]
      exact ⟨a, ha, hg⟩
  · rw [if_pos (Nat.zero_le k), if_pos (Nat.zero_le k)]
    exact h.first
  · have hik : i ≤ k := by omega
    rw [if_pos hik]
    by_cases hjk : i + 1 ≤ k
    · rw [if_pos hjk, if_pos hjk]; exact h.dir (by omega)
    · have : i = k := by omega
      subst this
      rw [if_neg hnk, if_neg hnk]
      exact ⟨c, hd'⟩
  · have hik : i ≤ k := by omega
    rw [if_pos hik]
    by_cases hjk : i < k
    · exact h.ne hjk
    · have : i = k := by omega
      subst this
      exact hk

/-- Gradients that are not zero are independent. -/
theorem CGHist.le_finrank [FiniteDimensional ℝ V] (h : CGHist B H W g d k) (hB : IsInner B)
    (hWs : ∀ a b, B (W a) b = B a (W b)) (hWp : ∀ a, a ≠ 0 → 0 < B a (W a)) {n : ℕ} (hn : n ≤ k + 1)
    (hne : ∀ i < n, g i ≠ 0) : n ≤ Module.finrank ℝ V := by
  have hli : LinearIndependent ℝ fun i : Fin n => g i := by
    rw [Fintype.linearIndependent_iff]
    intro c hc i
    have hlin : ∀ (s : Finset (Fin n)) (v : V),
        B (∑ j ∈ s, c j • g j) v = ∑ j ∈ s, c j * B (g j) v := by
      intro s v
      classical
      induction s using Finset.induction_on with
      | empty => simpa using hB.smul_left 0 0 v
      | insert j s hj ih => rw [Finset.sum_insert hj, Finset.sum_insert hj, hB.add_left,
          hB.smul_left, ih]
    have h1 := hlin Finset.univ (W (g i))
    rw [hc, Finset.sum_eq_single i] at h1
    · have h0 : B (0 : V) (W (g i)) = 0 := by simpa using hB.smul_left 0 0 (W (g i))
      rw [h0] at h1
      rcases mul_eq_zero.mp h1.symm with h2 | h2
      · exact h2
      · exact absurd h2 (hWp _ (hne i i.2)).ne'
    · intro j _ hj
      have hj' : (j : ℕ) ≠ i := fun hh => hj (Fin.ext hh)
      have hjn := j.2
      have hin := i.2
      rcases lt_or_gt_of_ne hj' with hlt | hlt
      · rw [← hWs, hB.symm, h.grads hB hlt (by omega), mul_zero]
      · rw [h.grads hB hlt (by omega), mul_zero]
    · exact fun hi => absurd (Finset.mem_univ i) hi
  simpa using hli.fintype_card_le_finrank

theorem flatKrylov_mono {g : V} {m n : ℕ} (h : m ≤ n) :
    flatKrylov g H W m ≤ flatKrylov g H W n :=
  Submodule.span_mono (Set.image_mono (Set.Iio_subset_Iio h))

theorem map_mem_flatKrylov {g : V} {n : ℕ} {v : V} (hv : v ∈ flatKrylov g H W n) :
    W (H v) ∈ flatKrylov g H W (n + 1) := by
  have : flatKrylov g H W n ≤ (flatKrylov g H W (n + 1)).comap (W ∘ₗ H) := by
    refine Submodule.span_le.2 ?_
    rintro _ ⟨i, hi, rfl⟩
    refine Submodule.subset_span ⟨i + 1, by simpa using hi, ?_⟩
    simp only [Function.iterate_succ_apply']
    rfl
  exact this hv

/-- Preconditioned gradients and directions lie in the Krylov spaces. -/
theorem CGHist.mem_krylov (h : CGHist B H W g d k) :
    ∀ i ≤ k, W (g i) ∈ flatKrylov (g 0) H W (i + 1) ∧ d i ∈ flatKrylov (g 0) H W (i + 1) := by
  intro i
  induction i with
  | zero =>
    intro _
    have h0 : W (g 0) ∈ flatKrylov (g 0) H W 1 := Submodule.subset_span ⟨0, by simp, rfl⟩
    exact ⟨h0, h.first ▸ Submodule.neg_mem _ h0⟩
  | succ i ih =>
    intro hi
    obtain ⟨h1, h2⟩ := ih (by omega)
    obtain ⟨a, -, ha⟩ := h.step (i := i) (by omega)
    obtain ⟨b, hb⟩ := h.dir (i := i) (by omega)
    have hm := flatKrylov_mono (g := g 0) (H := H) (W := W) (show i + 1 ≤ i + 1 + 1 by omega)
    have h3 : W (g (i + 1)) ∈ flatKrylov (g 0) H W (i + 1 + 1) := by
      rw [ha, map_add, map_smul]
      exact Submodule.add_mem _ (hm h1) (Submodule.smul_mem _ _ (map_mem_flatKrylov h2))
    exact ⟨h3, hb ▸ Submodule.add_mem _ (Submodule.neg_mem _ h3) (Submodule.smul_mem _ _ (hm h2))⟩

/-- The Krylov spaces are spanned by the directions. -/
theorem CGHist.krylov_le (h : CGHist B H W g d k) :
    ∀ j ≤ k, flatKrylov (g 0) H W j ≤ Submodule.span ℝ (d '' Set.Iio j) := by
  have hd : ∀ {i j : ℕ}, i < j → d i ∈ Submodule.span ℝ (d '' Set.Iio j) := fun hij =>
    Submodule.subset_span ⟨_, hij, rfl⟩
  have hW : ∀ {i j : ℕ}, i < j → i ≤ k → W (g i) ∈ Submodule.span ℝ (d '' Set.Iio j) := by
    intro i j hij hi
    cases i with
    | zero =>
      have : W (g 0) = -d 0 := by rw [h.first, neg_neg]
      rw [this]
      exact Submodule.neg_mem _ (hd hij)
    | succ i =>
      obtain ⟨b, hb⟩ := h.dir (i := i) (by omega)
      have : W (g (i + 1)) = b • d i - d (i + 1) := by rw [hb]; abel
      rw [this]
      exact Submodule.sub_mem _ (Submodule.smul_mem _ _ (hd (by omega))) (hd hij)
  intro j
  induction j with
  | zero => intro _; simp [flatKrylov]
  | succ j ih =>
    intro hj
    refine Submodule.span_le.2 ?_
    rintro _ ⟨i, hi, rfl⟩
    cases i with
    | zero => exact hW (by omega) (Nat.zero_le k)
    | succ i =>
      have hij : i < j := by simpa using hi
      have hmem : (fun v => W (H v))^[i] (W (g 0)) ∈ Submodule.span ℝ (d '' Set.Iio j) :=
        ih (by omega) (Submodule.subset_span ⟨i, hij, rfl⟩)
      have hle : Submodule.span ℝ (d '' Set.Iio j) ≤
          (Submodule.span ℝ (d '' Set.Iio (j + 1))).comap (W ∘ₗ H) := by
        refine Submodule.span_le.2 ?_
        rintro _ ⟨l, hl, rfl⟩
        have hl : l < j := hl
        obtain ⟨a, ha, he⟩ := h.step (i := l) (by omega)
        have : W (H (d l)) = a⁻¹ • (W (g (l + 1)) - W (g l)) := by
          rw [he, map_add, map_smul, add_sub_cancel_left, smul_smul, inv_mul_cancel₀ ha, one_smul]
        change W (H (d l)) ∈ Submodule.span ℝ (d '' Set.Iio (j + 1))
        rw [this]
        exact Submodule.smul_mem _ _ (Submodule.sub_mem _ (hW (by omega) (by omega))
          (hW (by omega) (by omega)))
      have := hle hmem
      simp only [Function.iterate_succ_apply']
      exact this

/-- The last gradient is orthogonal to the Krylov space. -/
theorem CGHist.perp_krylov (h : CGHist B H W g d k) (hB : IsInner B) {v : V}
    (hv : v ∈ flatKrylov (g 0) H W k) : B (g k) v = 0 := by
  replace hv := h.krylov_le k le_rfl hv
  induction hv using Submodule.span_induction with
  | mem v hv =>
    obtain ⟨i, hi, rfl⟩ := hv
    exact h.orth hi le_rfl
  | zero => simpa using hB.smul_right 0 (g k) 0
  | add v w _ _ h1 h2 => rw [hB.add_right, h1, h2, add_zero]
  | smul c v _ h1 => rw [hB.smul_right, h1, mul_zero]

end

/-! ### The loop of the code -/

/-- What holds of the loop variables after `k` iterations. -/
structure CGState.Exact (pb : Prob ℝ V V) (B : V → V → ℝ) (H W : V →ₗ[ℝ] V) (x0 : V)
    (s : CGState ℝ V V S) (g d : ℕ → V) (k : ℕ) : Prop where
  hist : CGHist B H W g d k
  iteration : s.iteration = k
  start : g 0 = pb.grad x0
  grad : s.grad = g k
  gradx : s.grad = pb.grad s.x
  cost : s.cost = pb.cost s.x
  dir : s.dir = d k
  Pgrad : s.Pgrad = W (g k)
  gradPgrad : s.gradPgrad = B (g k) (W (g k))
  norm : s.gradientNorm = Real.sqrt (B (g k) (g k))
  point : s.x - x0 ∈ flatKrylov (pb.grad x0) H W k

section
variable {pb : Prob ℝ V V} {B : V → V → ℝ} {H W : V →ₗ[ℝ] V}

theorem pymax_of_le {a b : ℝ} (h : a ≤ b) : pymax a b = b := by
  unfold pymax
  simp only [PyNum.lt, decide_eq_true_eq]
  split
  · rfl
  · rename_i h'; exact le_antisymm h (not_lt.1 h')

theorem pymax_of_ge {a b : ℝ} (h : b ≤ a) : pymax a b = a := by
  unfold pymax
  simp only [PyNum.lt, decide_eq_true_eq]
  rw [if_neg (not_lt.2 h)]

theorem pymin_self (a : ℝ) : pymin a a = a := by
  unfold pymin
  split <;> rfl

theorem div_ok {a b : ℝ} (h : b ≠ 0) : PyNum.div a b = .ok (a / b) := by
  simp [PyNum.div, h]

/-- All rules agree after an exact line search. -/
theorem beta_exact (hq : FlatQuadratic pb B H W) (rule : BetaRule) {a : BetaArgs V V ℝ} {g g' d : V}
    (hag : a.grad = g) (hao : a.oldgrad = g) (hag' : a.newgrad = g') (haP' : a.Pnewgrad = W g')
    (haP : a.Pgrad = W g) (haq : a.gradPgrad = B g (W g)) (haq' : a.newgradPnewgrad = B g' (W g'))
    (had : a.dir = d) (han : 0 < a.gradientNorm) (h0 : 0 < B g (W g)) (h0' : 0 < B g' (W g'))
    (h1 : B g' d = 0) (h2 : B g d = -B g (W g)) (h4 : B g (W g') = 0) :
    rule.eval pb.M a = .ok (B g' (W g') / B g (W g)) := by
  have hB := hq.isInner
  have hpos : 0 < B g' (W g') / B g (W g) := div_pos h0' h0
  have e1 : B (W g') (g' - g) = B g' (W g') := by
    rw [hB.symm, sub_eq_add_neg, hB.add_left, hB.neg_left, h4]; ring
  have e2 : B (g' - g) d = B g (W g) := by
    rw [sub_eq_add_neg, hB.add_left, hB.neg_left, h1, h2]; ring
  have hz : (lit 0 : ℝ) = 0 := by simp [PyNum.lit]
  cases rule
  · -- Fletcher-Reeves
    simp only [BetaRule.eval, betaFletcherReeves, haq, haq']
    exact div_ok h0.ne'
  · -- Hager-Zhang
    have hd : d ≠ 0 := by
      rintro rfl
      have : B g 0 = 0 := by simpa using hB.smul_right 0 g 0
      rw [this] at h2
      linarith
    have hn : 0 < Real.sqrt (B d d) := Real.sqrt_pos.2
      (lt_of_le_of_ne (hB.nonneg d) fun hh => hd (hB.definite d hh.symm))
    have hmin : 0 < pymin (lit (1 / 100)) a.gradientNorm := by
      unfold pymin
      split
      · exact han
      · simp only [PyNum.lit]; norm_num
    have e3 : B (g' - g) (W g') = B g' (W g') := by rw [hB.symm, e1]
    have e4 : B d g' = 0 := by rw [hB.symm, h1]
    simp only [BetaRule.eval, betaHagerZhang, hq.sub, hq.inner, hq.transport, hq.norm, hag', hao,
      haP', haP, had, e2, e3, e4, PyNum.mul, mul_zero, div_ok h0.ne', zero_div, PyNum.sub, sub_zero]
    rw [div_ok (mul_pos hn hmin).ne']
    simp only
    rw [pymax_of_ge]
    refine le_trans ?_ hpos.le
    refine div_nonpos_of_nonpos_of_nonneg ?_ (mul_pos hn hmin).le
    simp only [PyNum.lit]; norm_num
  · -- Hestenes-Stiefel
    simp only [BetaRule.eval, betaHestenesStiefel, hq.sub, hq.inner, hag', hao, haP', had, e1, e2]
    rw [div_ok h0.ne']
    simp only
    rw [hz, pymax_of_le hpos.le]
  · -- Polak-Ribiere
    simp only [BetaRule.eval, betaPolakRibiere, hq.sub, hq.inner, hag', hao, haP', haq, e1]
    rw [div_ok h0.ne']
    simp only
    rw [hz, pymax_of_le hpos.le]
  · -- Liu-Storey
    have e3 : PyNum.neg (B g d) = B g (W g) := by simp only [PyNum.neg]; rw [h2, neg_neg]
    simp only [BetaRule.eval, betaLiuStorey, hq.sub, hq.inner, hag, hag', hao, haP', had, haq', e1,
      e3]
    rw [div_ok h0.ne']
    simp only
    rw [pymin_self, hz, pymax_of_le hpos.le]

/-- The test at the top of the loop body. -/
noncomputable def cgStop (cfg : Cfg ℝ) (clk : Clock ℝ) (s : CGState ℝ V V S) : Option (StopReason ℝ) :=
  checkStop cfg clk.start (clk.check1 (s.iteration + 1) 0) (clk.check2 (s.iteration + 1) 0)
    (gradientNorm := s.gradientNorm) (iteration := s.iteration + 1) (stepSize := s.stepSize)

/-- One iteration that is not stopped. -/
theorem cgStep_exact (hq : FlatQuadratic pb B H W) {ls : LineSearcher ℝ V V S}
    (hls : ExactSearch ls pb B) {cfg : Cfg ℝ} (hε : 0 < cfg.minGradientNorm) {clk : Clock ℝ} {x0 : V}
    {s : CGState ℝ V V S} {g d : ℕ → V} {k : ℕ} (hs : CGState.Exact pb B H W x0 s g d k)
    (hc : cgStop cfg clk s = none) :
    g k ≠ 0 ∧ ∃ o, ls.search s.mem pb.cost pb.M s.x s.dir s.cost (B s.grad s.dir) = .ok o ∧
      (pb.grad o.newx = 0 → ∀ rule orth, cgStep cfg rule orth ls pb clk s = .error .zeroDivision) ∧
      (pb.grad o.newx ≠ 0 → ∃ s' : CGState ℝ V V S, s'.x = o.newx ∧
        (∀ rule orth, 0 < orth → cgStep cfg rule orth ls pb clk s = .ok (.next s')) ∧
        ∃ g' d', CGState.Exact pb B H W x0 s' g' d' (k + 1)) := by
  have hB := hq.isInner
  have hk : g k ≠ 0 := by
    intro h0
    have h00 : B (0 : V) 0 = 0 := by simpa using hB.smul_left 0 0 0
    have hn : s.gradientNorm = 0 := by rw [hs.norm, h0, h00, Real.sqrt_zero]
    unfold cgStop checkStop at hc
    rw [hn] at hc
    simp only [Option.any_some, PyNum.lt, decide_eq_true_eq, hε, if_true] at hc
    split at hc
    · cases hc
    · split at hc <;> cases hc
  have hp := hq.W_pos _ hk
  have hsl : B (g k) (d k) = -B (g k) (W (g k)) := hs.hist.slope le_rfl
  have hneg : B s.grad s.dir < 0 := by rw [hs.grad, hs.dir, hsl]; linarith
  obtain ⟨o, ho, a, hnx, hperp⟩ := hls s.mem s.x s.dir (by rw [← hs.gradx]; exact hneg)
  rw [← hs.gradx, ← hs.cost] at ho
  have hgn : pb.grad o.newx = g k + a • H (d k) := by
    rw [hnx, hq.grad, ← hs.gradx, hs.grad, hs.dir, map_smul]
  obtain ⟨g', hg'⟩ : ∃ g', g' = pb.grad o.newx := ⟨_, rfl⟩
  rw [← hg'] at hgn hperp
  rw [hs.dir] at hperp
  obtain ⟨ha, hog, hist⟩ := hs.hist.succ hB hq.W_symm hq.W_pos hk hq.H_symm hgn hperp
  have h4 : B (g k) (W g') = 0 := by rw [← hq.W_symm, hB.symm, hog k le_rfl]
  have hle : PyNum.le (lit 0) (B s.grad s.dir) = false := by
    simp only [PyNum.le, PyNum.lit, Rat.cast_zero, decide_eq_false_iff_not, not_le]
    exact hneg
  refine ⟨hk, o, ho, fun hz rule orth => ?_, fun hnz => ?_⟩
  · rw [← hg'] at hz
    have hq0 : B g' (W g') = 0 := by
      rw [hz, map_zero]
      simpa using hB.smul_left 0 0 0
    unfold cgStop at hc
    unfold cgStep
    simp only [hc, hq.inner, hle, Bool.false_eq_true, if_false, ho, cgDirection, hq.precon, ← hg',
      hq0]
    simp [PyNum.div]
  · rw [← hg'] at hnz
    have hp' := hq.W_pos _ hnz
    have hm := flatKrylov_mono (g := pb.grad x0) (H := H) (W := W) (Nat.le_succ k)
    have hnk : ¬ k + 1 ≤ k := by omega
    refine ⟨{ iteration := s.iteration + 1, stepSize := o.stepSize, x := o.newx,
              cost := pb.cost o.newx, grad := g', Pgrad := W g',
              gradientNorm := Real.sqrt (B g' g'), gradPgrad := B g' (W g'),
              dir := -W g' + (B g' (W g') / B (g k) (W (g k))) • d k, mem := o.mem,
              log := addLog cfg s.log
                { time := clk.log (s.iteration + 1), iteration := s.iteration + 1, point := s.x,
                  cost := s.cost, gradientNorm := s.gradientNorm },
              evals := s.evals ++ o.evals ++ [o.newx],
              searches := s.searches ++ [(s.x, s.dir, B s.grad s.dir)] },
      rfl, fun rule orth ho' => ?_, _, _, hist, ?_, ?_, ?_, hg', rfl, ?_, ?_, ?_, ?_, ?_⟩
    · unfold cgStop at hc
      unfold cgStep
      simp only [hc, hq.inner, hle, Bool.false_eq_true, if_false, ho, cgDirection, hq.precon,
        hq.transport]
      rw [← hg', hs.grad, h4, div_ok hp'.ne', zero_div]
      have : PyNum.le orth (PyNum.abs (0 : ℝ)) = false := by
        simp only [PyNum.le, PyNum.abs, abs_zero, decide_eq_false_iff_not, not_le]
        exact ho'
      simp only [this, Bool.false_eq_true, if_false]
      rw [beta_exact hq rule (g := g k) (g' := g') (d := d k) rfl rfl rfl rfl hs.Pgrad hs.gradPgrad
        rfl hs.dir ?_ hp hp' hperp hsl h4]
      · simp only [hq.neg, hq.add, hq.smul, hq.norm, hs.dir]
      · simp only
        rw [hs.norm]
        exact Real.sqrt_pos.2 (lt_of_le_of_ne (hB.nonneg _) fun hh => hk (hB.definite _ hh.symm))
    · simp only [hs.iteration]
      push_cast
      rfl
    · simp only [Nat.zero_le, if_true]
      exact hs.start
    · simp only [hnk, if_false]
    · simp only [hnk, if_false]
    · simp only [hnk, if_false]
    · simp only [hnk, if_false]
    · simp only [hnk, if_false]
    · have : o.newx - x0 = s.x - x0 + a • d k := by rw [hnx, hs.dir]; abel
      rw [this]
      refine Submodule.add_mem _ (hm hs.point) (Submodule.smul_mem _ _ ?_)
      rw [← hs.start]
      exact (hs.hist.mem_krylov k le_rfl).2

/-- The state at the start of the loop. -/
theorem cgInit_exact (hq : FlatQuadratic pb B H W) (cfg : Cfg ℝ) (x : V) (mem : S) :
    ∃ g d, CGState.Exact pb B H W x (cgInit cfg pb x mem) g d 0 := by
  refine ⟨fun _ => pb.grad x, fun _ => -W (pb.grad x), ⟨?_, ?_, ?_, ?_, rfl, ?_, ?_⟩, rfl, rfl, rfl,
    rfl, rfl, ?_, ?_, ?_, ?_, ?_⟩
  · intro i j hij hj; omega
  · intro i j hij hj; omega
  · intro i _; rw [hq.isInner.neg_right]
  · intro i hi; omega
  · intro i hi; omega
  · intro i hi; omega
  · simp only [cgInit, hq.neg, hq.precon]
  · simp only [cgInit, hq.precon]
  · simp only [cgInit, hq.inner, hq.precon]
  · simp only [cgInit, hq.norm]
  · simp only [cgInit, sub_self]
    exact Submodule.zero_mem _

/-- The point of a state is the minimiser over the points the method has searched. -/
theorem CGState.Exact.minimal (hq : FlatQuadratic pb B H W) {x0 : V} {s : CGState ℝ V V S}
    {g d : ℕ → V} {k : ℕ} (hs : CGState.Exact pb B H W x0 s g d k) {v : V}
    (hv : v ∈ flatKrylov (pb.grad x0) H W k) : pb.cost s.x ≤ pb.cost (x0 + v) := by
  have hB := hq.isInner
  have e : x0 + v = s.x + (v - (s.x - x0)) := by abel
  have hw := Submodule.sub_mem _ hv hs.point
  have h0 : B (pb.grad s.x) (v - (s.x - x0)) = 0 := by
    rw [← hs.gradx, hs.grad]
    refine hs.hist.perp_krylov hB ?_
    rwa [hs.start]
  rw [e, hq.cost, h0]
  by_cases hz : v - (s.x - x0) = 0
  · have : B (0 : V) (H 0) = 0 := by rw [map_zero]; simpa using hB.smul_left 0 0 0
    rw [hz, this]
    linarith
  · have := hq.H_pos _ hz
    linarith

/-- A point with zero gradient is the minimiser. -/
theorem FlatQuadratic.minimum (hq : FlatQuadratic pb B H W) {x : V} (hx : pb.grad x = 0) (y : V) :
    pb.cost x ≤ pb.cost y := by
  have hB := hq.isInner
  have e : y = x + (y - x) := by abel
  have h0 : B (0 : V) (y - x) = 0 := by simpa using hB.smul_left 0 0 (y - x)
  rw [e, hq.cost, hx, h0]
  by_cases hz : y - x = 0
  · have : B (0 : V) (H 0) = 0 := by rw [map_zero]; simpa using hB.smul_left 0 0 0
    rw [hz, this]
    linarith
  · have := hq.H_pos _ hz
    linarith

omit [AddCommGroup V] [Module ℝ V] in
/-- What a stopped run returns. -/
theorem cgStep_stop {ls : LineSearcher ℝ V V S} {cfg : Cfg ℝ} {clk : Clock ℝ} {s : CGState ℝ V V S}
    {reason : StopReason ℝ} (hc : cgStop cfg clk s = some reason) (rule : BetaRule) (orth : ℝ) :
    cgStep cfg rule orth ls pb clk s =
      .ok (.brk ({ point := s.x, cost := s.cost, iterations := s.iteration + 1, stop := reason,
                   time := sub clk.final clk.start, costEvaluations := some (s.iteration + 1),
                   stepSize := s.stepSize, gradientNorm := some s.gradientNorm,
                   log := addLog cfg s.log
                    { time := clk.log (s.iteration + 1), iteration := s.iteration + 1, point := s.x,
                      cost := s.cost, gradientNorm := s.gradientNorm },
                   evals := s.evals }, s.mem, s.searches)) := by
  unfold cgStop at hc
  unfold cgStep
  simp only [hc]

/-- The loop keeps the invariant. -/
theorem cgStep_next (hq : FlatQuadratic pb B H W) {ls : LineSearcher ℝ V V S}
    (hls : ExactSearch ls pb B) {cfg : Cfg ℝ} (hε : 0 < cfg.minGradientNorm) {clk : Clock ℝ} {x0 : V}
    {rule : BetaRule} {orth : ℝ} (ho : 0 < orth) {s s' : CGState ℝ V V S} {g d : ℕ → V} {k : ℕ}
    (hs : CGState.Exact pb B H W x0 s g d k)
    (h : cgStep cfg rule orth ls pb clk s = .ok (.next s')) :
    g k ≠ 0 ∧ ∃ g' d', CGState.Exact pb B H W x0 s' g' d' (k + 1) := by
  cases hc : cgStop cfg clk s with
  | some reason => rw [cgStep_stop hc] at h; cases h
  | none =>
    obtain ⟨hk, o, -, hz, hnz⟩ := cgStep_exact hq hls hε hs hc
    refine ⟨hk, ?_⟩
    by_cases h0 : pb.grad o.newx = 0
    · rw [hz h0] at h; cases h
    · obtain ⟨t, -, h1, h2⟩ := hnz h0
      rw [h1 rule orth ho] at h
      cases h
      exact h2

/-- **C149** (the rule does not matter): with an exact line search, all rules for `beta` and all
positive thresholds for Powell's restarts give the same result on a strictly convex quadratic
function. -/
theorem C149_rules (hq : FlatQuadratic pb B H W) {ls : LineSearcher ℝ V V S}
    (hls : ExactSearch ls pb B) {cfg : Cfg ℝ} (hε : 0 < cfg.minGradientNorm) {clk : Clock ℝ} {x : V}
    {mem : S} (rule rule' : BetaRule) {orth orth' : ℝ} (ho : 0 < orth) (ho' : 0 < orth')
    {r : Except PyErr (Result ℝ V × S × List (V × V × ℝ))} :
    CGRuns cfg rule orth ls pb clk x mem r ↔ CGRuns cfg rule' orth' ls pb clk x mem r := by
  have key : ∀ (rule rule' : BetaRule) {orth orth' : ℝ}, 0 < orth → 0 < orth' →
      CGRuns cfg rule orth ls pb clk x mem r → CGRuns cfg rule' orth' ls pb clk x mem r := by
    intro rule rule' orth orth' ho ho' h
    unfold CGRuns at h ⊢
    split at h
    · exact h
    · obtain ⟨g, d, h0⟩ := cgInit_exact hq cfg x mem
      obtain ⟨n, hn⟩ := h
      generalize cgInit cfg pb x mem = s at h0 hn
      generalize 0 = k at h0
      suffices hsuf : RunsIn (cgStep cfg rule' orth' ls pb clk) s n r from ⟨n, hsuf⟩
      have heq : ∀ (s : CGState ℝ V V S) g d k, CGState.Exact pb B H W x s g d k →
          cgStep cfg rule orth ls pb clk s = cgStep cfg rule' orth' ls pb clk s := by
        intro s g d k hs
        cases hc : cgStop cfg clk s with
        | some reason => rw [cgStep_stop hc, cgStep_stop hc]
        | none =>
          obtain ⟨-, o, -, hz, hnz⟩ := cgStep_exact hq hls hε hs hc
          by_cases h0 : pb.grad o.newx = 0
          · rw [hz h0, hz h0]
          · obtain ⟨s', -, h1, -⟩ := hnz h0
            rw [h1 rule orth ho, h1 rule' orth' ho']
      induction hn generalizing g d k with
      | brk h => exact .brk ((heq _ _ _ _ h0).symm.trans h)
      | err h => exact .err ((heq _ _ _ _ h0).symm.trans h)
      | next h _ ih =>
        obtain ⟨-, g', d', h1⟩ := cgStep_next hq hls hε ho h0 h
        exact .next ((heq _ _ _ _ h0).symm.trans h) (ih _ _ _ h1)
  exact ⟨key rule rule' ho ho', key rule' rule ho' ho⟩

/-- **C149** (conjugate gradient with an exact line search on a strictly convex quadratic function):
a run makes at most as many iterations as the space has dimensions (and at least one).  The point it
returns after `k + 1` iterations is a minimiser over the starting point plus the Krylov space of
dimension at most `k`; unless time, step size or number of iterations stop it earlier its gradient
is smaller than the threshold. -/
theorem C149_finite [FiniteDimensional ℝ V] (hq : FlatQuadratic pb B H W)
    {ls : LineSearcher ℝ V V S} (hls : ExactSearch ls pb B) {cfg : Cfg ℝ}
    (hε : 0 < cfg.minGradientNorm) {clk : Clock ℝ} {x : V} {mem : S} {rule : BetaRule} {orth : ℝ}
    (ho : 0 < orth) {res : Result ℝ V} {m : S} {t : List (V × V × ℝ)}
    (h : CGRuns cfg rule orth ls pb clk x mem (.ok (res, m, t))) :
    (∃ k : ℕ, res.iterations = k + 1 ∧ k + 1 ≤ max 1 (Module.finrank ℝ V) ∧
      res.point - x ∈ flatKrylov (pb.grad x) H W k ∧
      ∀ v ∈ flatKrylov (pb.grad x) H W k, pb.cost res.point ≤ pb.cost (x + v)) ∧
    (max 1 (Module.finrank ℝ V) < cfg.maxIterations →
      (∀ i, clk.check2 i 0 < clk.start + cfg.maxTime) → 0 ≤ cfg.maxCostEvaluations →
      (∀ i τ, res.stop ≠ .minStepSize i τ) →
      Real.sqrt (B (pb.grad res.point) (pb.grad res.point)) < cfg.minGradientNorm) := by
  have hB := hq.isInner
  unfold CGRuns at h
  split at h
  · cases h
  refine Runs.invariant
    (fun s => ∃ g d k, CGState.Exact pb B H W x s g d k ∧ (0 < k → k < Module.finrank ℝ V))
    (fun r : Result ℝ V × S × List (V × V × ℝ) =>
      (∃ k : ℕ, r.1.iterations = k + 1 ∧ k + 1 ≤ max 1 (Module.finrank ℝ V) ∧
      r.1.point - x ∈ flatKrylov (pb.grad x) H W k ∧
      ∀ v ∈ flatKrylov (pb.grad x) H W k, pb.cost r.1.point ≤ pb.cost (x + v)) ∧
    (max 1 (Module.finrank ℝ V) < cfg.maxIterations →
      (∀ i, clk.check2 i 0 < clk.start + cfg.maxTime) → 0 ≤ cfg.maxCostEvaluations →
      (∀ i τ, r.1.stop ≠ .minStepSize i τ) →
      Real.sqrt (B (pb.grad r.1.point) (pb.grad r.1.point)) < cfg.minGradientNorm))
    ?_ ?_ h ?_
  · rintro s s' ⟨g, d, k, hs, hk⟩ hstep
    cases hc : cgStop cfg clk s with
    | some reason => rw [cgStep_stop hc] at hstep; cases hstep
    | none =>
      obtain ⟨hgk, o, -, hz, hnz⟩ := cgStep_exact hq hls hε hs hc
      by_cases h0 : pb.grad o.newx = 0
      · rw [hz h0] at hstep; cases hstep
      · obtain ⟨t, htx, h1, g', d', h2⟩ := hnz h0
        have h1' := h1 rule orth ho
        rw [hstep] at h1'
        cases h1'
        refine ⟨g', d', k + 1, h2, fun _ => ?_⟩
        refine h2.hist.le_finrank hB hq.W_symm hq.W_pos (n := k + 1 + 1) le_rfl fun i hi => ?_
        rcases Nat.lt_succ_iff_lt_or_eq.mp hi with hi | rfl
        · exact h2.hist.ne hi
        · rw [← h2.grad, h2.gradx, htx]
          exact h0
  · rintro s r ⟨g, d, k, hs, hk⟩ hstep
    cases hc : cgStop cfg clk s with
    | none =>
      obtain ⟨-, o, -, hz, hnz⟩ := cgStep_exact hq hls hε hs hc
      by_cases h0 : pb.grad o.newx = 0
      · rw [hz h0] at hstep; cases hstep
      · obtain ⟨t, -, h1, -⟩ := hnz h0
        rw [h1 rule orth ho] at hstep
        cases hstep
    | some reason =>
      rw [cgStep_stop hc] at hstep
      cases hstep
      have hk1 : k + 1 ≤ max 1 (Module.finrank ℝ V) := by
        rcases Nat.eq_zero_or_pos k with rfl | hk0
        · exact le_max_left _ _
        · exact le_max_of_le_right (hk hk0)
      refine ⟨⟨k, ?_, hk1, hs.point, fun v hv => hs.minimal hq hv⟩, fun hmax ht he hst => ?_⟩
      · simp only [hs.iteration]
      · have hi : s.iteration + 1 < cfg.maxIterations := by
          rw [hs.iteration]
          exact lt_of_le_of_lt (by exact_mod_cast hk1) hmax
        simp only at hst ⊢
        rw [← hs.gradx, hs.grad, ← hs.norm]
        unfold cgStop checkStop at hc
        simp only [PyNum.le, PyNum.add, decide_eq_true_eq] at hc
        rw [if_neg (not_le.2 (ht _)), if_neg (not_le.2 hi)] at hc
        split at hc
        · rename_i hg
          simpa [PyNum.lt] using hg
        · split at hc
          · cases hc
            exact absurd rfl (hst _ _)
          · rw [if_neg (by omega)] at hc
            cases hc
  · obtain ⟨g, d, h0⟩ := cgInit_exact hq cfg x mem
    exact ⟨g, d, 0, h0, fun h => absurd h (lt_irrefl 0)⟩

/-- **C149** (what happens at the minimiser): the only way such a run can fail is that, within as
many iterations as the space has dimensions, the line search returned the minimiser itself and the
code divided by the squared norm of its gradient, which is zero (with numpy scalars the run goes on
and stops there, see `C12_numpy_partial`). -/
theorem C149_exact_hit [FiniteDimensional ℝ V] (hq : FlatQuadratic pb B H W)
    {ls : LineSearcher ℝ V V S} (hls : ExactSearch ls pb B) {cfg : Cfg ℝ}
    (hε : 0 < cfg.minGradientNorm) {clk : Clock ℝ} {x : V} {mem : S} {rule : BetaRule} {orth : ℝ}
    (ho : 0 < orth) {e : PyErr} (h : CGRuns cfg rule orth ls pb clk x mem (.error e)) :
    printerSetup cfg = .error e ∨ e = .zeroDivision ∧
      ∃ (s : CGState ℝ V V S) (o : SearchOut ℝ V S),
        Reaches (cgStep cfg rule orth ls pb clk) (cgInit cfg pb x mem) s ∧
        s.iteration < Module.finrank ℝ V ∧
        ls.search s.mem pb.cost pb.M s.x s.dir s.cost (B s.grad s.dir) = .ok o ∧
        pb.grad o.newx = 0 ∧ ∀ y, pb.cost o.newx ≤ pb.cost y := by
  have hB := hq.isInner
  unfold CGRuns at h
  split at h
  · rename_i hp
    cases h
    exact Or.inl hp
  right
  obtain ⟨g, d, h0⟩ := cgInit_exact hq cfg x mem
  obtain ⟨n, hn⟩ := h
  have hr : Reaches (cgStep cfg rule orth ls pb clk) (cgInit cfg pb x mem) (cgInit cfg pb x mem) :=
    .refl
  have h0' : ∃ g d k, CGState.Exact pb B H W x (cgInit cfg pb x mem) g d k := ⟨g, d, 0, h0⟩
  clear h0
  generalize hr0 : (Except.error e : Except PyErr (Result ℝ V × S × List (V × V × ℝ))) = r at hn
  revert hn hr h0'
  generalize cgInit cfg pb x mem = t₀
  suffices H : ∀ t, Reaches (cgStep cfg rule orth ls pb clk) t₀ t →
      (∃ g d k, CGState.Exact pb B H W x t g d k) →
      RunsIn (cgStep cfg rule orth ls pb clk) t n r → _ from fun hr h0' hn => H _ hr h0' hn
  intro t hr h0' hn
  induction hn with
  | brk h => cases hr0
  | @next s s' n r h _ ih =>
    obtain ⟨g, d, k, hs⟩ := h0'
    obtain ⟨-, g', d', h1⟩ := cgStep_next hq hls hε ho hs h
    exact ih hr0 (hr.tail h) ⟨g', d', _, h1⟩
  | @err s e' h =>
    cases hr0
    obtain ⟨g, d, k, hs⟩ := h0'
    cases hc : cgStop cfg clk s with
    | some reason => rw [cgStep_stop hc] at h; cases h
    | none =>
      obtain ⟨hgk, o, hso, hz, hnz⟩ := cgStep_exact hq hls hε hs hc
      by_cases hg : pb.grad o.newx = 0
      · rw [hz hg] at h
        cases h
        refine ⟨rfl, s, o, hr, ?_, hso, hg, hq.minimum hg⟩
        rw [hs.iteration]
        have := hs.hist.le_finrank hB hq.W_symm hq.W_pos (n := k + 1) le_rfl fun i hi => by
          rcases Nat.lt_succ_iff_lt_or_eq.mp hi with hi | rfl
          · exact hs.hist.ne hi
          · exact hgk
        exact_mod_cast this
      · obtain ⟨t, -, h1, -⟩ := hnz hg
        rw [h1 rule orth ho] at h
        cases h

end

/-! ### Quadratic functions on the Euclidean manifold -/

section
variable {ι : Type*} [Fintype ι]

/-- Minimising `x ↦ ½ ⟨x, A x⟩ - ⟨b, x⟩` on the `Euclidean` manifold. -/
noncomputable def quadProb (dim : ℤ) (A : Matrix ι ι ℝ) (b : ι → ℝ) : Prob ℝ (ι → ℝ) (ι → ℝ) :=
  arrayProb (euclideanMfd dim) (subE2rg eucProj) eucE2rh (fun _ v => v)
    (fun x => 1 / 2 * tensordot x (A.mulVec x) - tensordot b x) (fun x => A.mulVec x - b)
    fun _ v => A.mulVec v

/-- **C149** (Euclidean): these problems meet the hypotheses if `A` is symmetric positive
definite. -/
theorem C149_euclidean (dim : ℤ) {A : Matrix ι ι ℝ} (b : ι → ℝ) (hsymm : A.transpose = A)
    (hpos : ∀ v : ι → ℝ, v ≠ 0 → 0 < tensordot v (A.mulVec v)) :
    FlatQuadratic (quadProb dim A b) tensordot A.mulVecLin LinearMap.id := by
  have hB : IsInner (E := ι → ℝ) tensordot := tensordot_inner
  have hA : ∀ u v : ι → ℝ, tensordot (A.mulVec u) v = tensordot u (A.mulVec v) := by
    intro u v
    change dotProduct _ _ = dotProduct _ _
    rw [Matrix.dotProduct_mulVec, ← Matrix.mulVec_transpose, hsymm]
  exact
    { isInner := hB
      inner := fun x u v => retensordot_real u v
      norm := fun x u => npNorm_eq_sqrt u
      retraction := fun _ _ => rfl
      transport := fun _ _ _ => rfl
      add := fun _ _ => rfl
      sub := fun _ _ => rfl
      neg := fun _ => rfl
      smul := fun _ _ => rfl
      cost := fun x v => by
        change 1 / 2 * tensordot (x + v) (A.mulVec (x + v)) - tensordot b (x + v) =
          1 / 2 * tensordot x (A.mulVec x) - tensordot b x + tensordot (A.mulVec x - b) v +
            1 / 2 * tensordot v (A.mulVec v)
        rw [Matrix.mulVec_add, hB.add_left, hB.add_right, hB.add_right, hB.add_right,
          sub_eq_add_neg (A.mulVec x), hB.add_left, hB.neg_left, hA x v, hB.symm v (A.mulVec x), hA x v]
        ring
      grad := fun x v => by
        change A.mulVec (x + v) - b = A.mulVec x - b + A.mulVec v
        rw [Matrix.mulVec_add]
        abel
      H_symm := hA
      H_pos := fun v hv => hpos v hv
      precon := fun _ _ => rfl
      W_symm := fun _ _ => rfl
      W_pos := fun v hv => (hB.nonneg v).lt_of_ne fun h => hv (hB.definite v h.symm) }

/-- The exact line search for such a problem. -/
noncomputable def quadSearch (A : Matrix ι ι ℝ) : LineSearcher ℝ (ι → ℝ) (ι → ℝ) Unit where
  search _ _ M x d _ df0 :=
    let a := -df0 / tensordot d (A.mulVec d)
    let newx := M.retraction x (M.smul a d)
    .ok { stepSize := a * M.norm x d, newx := newx, mem := (), evals := [newx] }

/-- **C149** (Euclidean, line search) it is exact. -/
theorem C149_euclidean_search (dim : ℤ) {A : Matrix ι ι ℝ} (b : ι → ℝ) (hsymm : A.transpose = A)
    (hpos : ∀ v : ι → ℝ, v ≠ 0 → 0 < tensordot v (A.mulVec v)) :
    ExactSearch (quadSearch A) (quadProb dim A b) tensordot := by
  have hq := C149_euclidean dim b hsymm hpos
  have hB := hq.isInner
  intro mem x d hd
  refine ⟨_, rfl, -tensordot ((quadProb dim A b).grad x) d / tensordot d (A.mulVec d), rfl, ?_⟩
  have h0 : tensordot d (A.mulVec d) ≠ 0 := by
    refine (hpos d ?_).ne'
    rintro rfl
    have := hB.smul_right 0 ((quadProb dim A b).grad x) 0
    rw [zero_smul, zero_mul] at this
    linarith
  change tensordot ((quadProb dim A b).grad (x + _ • d)) d = 0
  rw [hq.grad, map_smul, hB.add_left, hB.smul_left, hB.symm (A.mulVecLin d)]
  change _ + _ / _ * tensordot d (A.mulVec d) = 0
  rw [div_mul_cancel₀ _ h0]
  ring

/-- **C149** (Euclidean, conclusion): conjugate gradient with exact line search needs at most as many
iterations as there are entries. -/
theorem C149_euclidean_runs (dim : ℤ) {A : Matrix ι ι ℝ} (b : ι → ℝ) (hsymm : A.transpose = A)
    (hpos : ∀ v : ι → ℝ, v ≠ 0 → 0 < tensordot v (A.mulVec v)) {cfg : Cfg ℝ}
    (hε : 0 < cfg.minGradientNorm) {clk : Clock ℝ} {x : ι → ℝ} {rule : BetaRule} {orth : ℝ}
    (ho : 0 < orth) {res : Result ℝ (ι → ℝ)} {t : List ((ι → ℝ) × (ι → ℝ) × ℝ)}
    (h : CGRuns cfg rule orth (quadSearch A) (quadProb dim A b) clk x () (.ok (res, (), t))) :
    res.iterations ≤ max 1 (Fintype.card ι : ℤ) ∧
    (max 1 (Fintype.card ι : ℤ) < cfg.maxIterations →
      (∀ i, clk.check2 i 0 < clk.start + cfg.maxTime) → 0 ≤ cfg.maxCostEvaluations →
      (∀ i τ, res.stop ≠ .minStepSize i τ) →
      npNorm (A.mulVec res.point - b) < cfg.minGradientNorm) := by
  obtain ⟨⟨k, hk, hk1, -, -⟩, h2⟩ := C149_finite (C149_euclidean dim b hsymm hpos)
    (C149_euclidean_search dim b hsymm hpos) hε ho h
  rw [Module.finrank_fintype_fun_eq_card] at hk1 h2
  refine ⟨?_, fun h3 h4 h5 h6 => ?_⟩
  · rw [hk]
    exact_mod_cast hk1
  · rw [npNorm_eq_sqrt]
    exact h2 (by exact_mod_cast h3) h4 h5 h6

/-- The hypotheses hold for a quadratic function on the plane with two different curvatures, from a
point where the first search does not find the minimiser. -/
example :
    FlatQuadratic (quadProb 2 (Matrix.diagonal ![1, 2]) 0) tensordot
      (Matrix.diagonal ![(1 : ℝ), 2]).mulVecLin LinearMap.id ∧
    ExactSearch (quadSearch (Matrix.diagonal ![1, 2])) (quadProb 2 (Matrix.diagonal ![1, 2]) 0)
      tensordot := by
  have h1 : (Matrix.diagonal ![(1 : ℝ), 2]).transpose = Matrix.diagonal ![1, 2] :=
    Matrix.diagonal_transpose _
  have h2 : ∀ v : Fin 2 → ℝ, v ≠ 0 →
      0 < tensordot v ((Matrix.diagonal ![(1 : ℝ), 2]).mulVec v) := by
    intro v hv
    have : tensordot v ((Matrix.diagonal ![(1 : ℝ), 2]).mulVec v) = v 0 ^ 2 + 2 * v 1 ^ 2 := by
      simp [tensordot, Matrix.mulVec_diagonal, Fin.sum_univ_two]
      ring
    rw [this]
    by_contra hle
    refine hv (funext fun i => ?_)
    have h0 : v 0 ^ 2 = 0 := by nlinarith [sq_nonneg (v 0), sq_nonneg (v 1)]
    have h1 : v 1 ^ 2 = 0 := by nlinarith [sq_nonneg (v 0), sq_nonneg (v 1)]
    fin_cases i
    · simpa using h0
    · simpa using h1
  exact ⟨C149_euclidean 2 0 h1 h2, C149_euclidean_search 2 0 h1 h2⟩

end

end Verif.Geo
