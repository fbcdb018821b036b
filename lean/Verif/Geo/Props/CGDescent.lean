/-
C157: with the Hager–Zhang rule every search direction of conjugate gradient is one of sufficient
descent, on every manifold and with every line search; on strongly convex costs over Euclidean spaces
the method converges linearly.
-/
import Verif.Opt.Props.CG
import Verif.Opt.Props.OnManifold
import Verif.Opt.Props.CGLinear
import Verif.Opt.Witness
import Verif.Geo.Props.ConvexRate
import Verif.Geo.Props.CGFinite

namespace Verif.Geo
open Verif.Opt PyNum

variable {P E V S : Type*} [AddCommGroup E] [Module ℝ E] [AddCommGroup V] [Module ℝ V]

/-! ## Specification -/

/-- The operations on tangent vectors are those of a vector space. -/
structure VectorOps (M : Mfd ℝ P E) : Prop where
  add (v w : E) : M.add v w = v + w
  sub (v w : E) : M.sub v w = v - w
  neg (v : E) : M.neg v = -v
  smul (c : ℝ) (v : E) : M.smul c v = c • v

/-- A symmetric positive semidefinite form on a subspace. -/
structure IsSemiOn (T : E → Prop) (B : E → E → ℝ) : Prop where
  add_left (u v w : E) : T u → T v → T w → B (u + v) w = B u w + B v w
  smul_left (c : ℝ) (u v : E) : T u → T v → B (c • u) v = c * B u v
  symm (u v : E) : T u → T v → B u v = B v u
  nonneg (u : E) : T u → 0 ≤ B u u

/-- The preconditioner is linear, symmetric and positive semidefinite on every tangent space and commutes
with the transports.  Without a preconditioner it is the identity. -/
structure PreconOps (pb : Prob ℝ P E) (On : P → Prop) (Tan : P → E → Prop) : Prop where
  sub (x : P) (u v : E) : On x → Tan x u → Tan x v → pb.precon x (u - v) = pb.precon x u - pb.precon x v
  transport (x y : P) (u : E) : On x → On y → Tan x u →
    pb.M.transport x y (pb.precon x u) = pb.precon y (pb.M.transport x y u)
  semi (x : P) : On x → IsSemiOn (Tan x) fun u v => pb.M.inner x u (pb.precon x v)

/-! ## The Hager–Zhang rule -/

/-- The estimate behind the rule. -/
theorem hz_slope {gg yg yy dg den eta : ℝ} (h : ∀ a : ℝ, 0 ≤ a ^ 2 * yy - a / 2 * yg + gg / 16)
    (heta : eta ≤ 0) (hgg : 0 ≤ gg) :
    -gg + max ((yg - 2 * yy * dg / den) / den) eta * dg ≤ -(7 / 8) * gg := by
  have hb : (yg - 2 * yy * dg / den) / den * dg ≤ 1 / 8 * gg := by
    have e : (yg - 2 * yy * dg / den) / den * dg = dg / den * yg - 2 * (dg / den) ^ 2 * yy := by
      ring
    rw [e]
    linarith [h (dg / den)]
  rcases le_total eta ((yg - 2 * yy * dg / den) / den) with h1 | h1
  · rw [max_eq_left h1]
    linarith
  · rw [max_eq_right h1]
    rcases le_total 0 dg with h2 | h2
    · linarith [mul_nonpos_of_nonpos_of_nonneg heta h2]
    · linarith [mul_le_mul_of_nonpos_right h1 h2]

/-- The form of the Hager–Zhang estimate for a semidefinite form. -/
theorem IsSemiOn.quarter {T : E → Prop} {B : E → E → ℝ} (h : IsSemiOn T B) (hT : IsSubspace T) {y g : E}
    (hy : T y) (hg : T g) (a : ℝ) : 0 ≤ a ^ 2 * B y y - a / 2 * B y g + B g g / 16 := by
  have hw : T (a • y + (-(1 / 4) : ℝ) • g) := hT.add (hT.smul a hy) (hT.smul _ hg)
  have h1 := h.nonneg _ hw
  have h2 : ∀ z, T z → B (a • y + (-(1 / 4) : ℝ) • g) z = a * B y z - 1 / 4 * B g z := fun z hz => by
    rw [h.add_left _ _ _ (hT.smul a hy) (hT.smul _ hg) hz, h.smul_left _ _ _ hy hz,
      h.smul_left _ _ _ hg hz]
    ring
  rw [h2 _ hw, h.symm y _ hy hw, h.symm g _ hg hw, h2 y hy, h2 g hg, h.symm g y hg hy] at h1
  linarith

/-- **C157** (descent): whatever the line search does, every search of `ConjugateGradient` with the
Hager–Zhang rule is made along a direction `d` with `⟨g, d⟩ ≤ -7/8 ⟨g, P g⟩`, where `g` is the gradient
and `P` the preconditioner, and the slope passed to the line search is `⟨g, d⟩`.  Nothing is assumed of
the transport except that it returns tangent vectors. -/
theorem C157_descent {pb : Prob ℝ P E} {On : P → Prop} {Tan : P → E → Prop} (hpb : ClosedProb pb On Tan)
    (hops : VectorOps pb.M) (hT : ∀ x, On x → IsSubspace (Tan x))
    (hI : ∀ x, On x → IsInnerOn (Tan x) (pb.M.inner x))
    (hn : ∀ x v, On x → Tan x v → 0 ≤ pb.M.norm x v) (hP : PreconOps pb On Tan)
    {ls : LineSearcher ℝ P E S} (hls : SearchesOn ls pb.M On Tan) {cfg : Cfg ℝ} {orth : ℝ}
    {clk : Clock ℝ} {x : P} {mem m : S} {res : Result ℝ P} {calls : List (P × E × ℝ)} (hx : On x)
    (h : CGRuns cfg .hagerZhang orth ls pb clk x mem (.ok (res, m, calls))) :
    ∀ t ∈ calls, On t.1 ∧ Tan t.1 t.2.1 ∧ t.2.2 = pb.M.inner t.1 (pb.grad t.1) t.2.1 ∧
      t.2.2 ≤ -(7 / 8) * pb.M.inner t.1 (pb.grad t.1) (pb.precon t.1 (pb.grad t.1)) := by
  have hM := hpb.mfd
  -- the direction of a restart
  have hre : ∀ y, On y → pb.M.inner y (pb.grad y) (pb.M.neg (pb.precon y (pb.grad y))) =
      -pb.M.inner y (pb.grad y) (pb.precon y (pb.grad y)) := fun y hy => by
    have hg := hpb.grad y hy
    have hp := hpb.precon y _ hy hg
    have hng : Tan y ((-1 : ℝ) • pb.precon y (pb.grad y)) := (hT y hy).smul _ hp
    rw [hops.neg, ← neg_one_smul ℝ, (hI y hy).symm _ _ hg hng, (hI y hy).smul_left _ _ _ hp hg,
      (hI y hy).symm _ _ hp hg]
    ring
  unfold CGRuns at h
  split at h
  · cases h
  refine h.invariant
    (Inv := fun s : CGState ℝ P E S => On s.x ∧ s.grad = pb.grad s.x ∧
      s.Pgrad = pb.precon s.x (pb.grad s.x) ∧
      s.gradPgrad = pb.M.inner s.x (pb.grad s.x) (pb.precon s.x (pb.grad s.x)) ∧
      s.gradientNorm = pb.M.norm s.x (pb.grad s.x) ∧ Tan s.x s.dir ∧
      pb.M.inner s.x (pb.grad s.x) s.dir ≤
        -(7 / 8) * pb.M.inner s.x (pb.grad s.x) (pb.precon s.x (pb.grad s.x)) ∧
      ∀ t ∈ s.searches, On t.1 ∧ Tan t.1 t.2.1 ∧ t.2.2 = pb.M.inner t.1 (pb.grad t.1) t.2.1 ∧
        t.2.2 ≤ -(7 / 8) * pb.M.inner t.1 (pb.grad t.1) (pb.precon t.1 (pb.grad t.1)))
    (Post := fun r : Result ℝ P × S × List (P × E × ℝ) =>
      ∀ t ∈ r.2.2, On t.1 ∧ Tan t.1 t.2.1 ∧ t.2.2 = pb.M.inner t.1 (pb.grad t.1) t.2.1 ∧
        t.2.2 ≤ -(7 / 8) * pb.M.inner t.1 (pb.grad t.1) (pb.precon t.1 (pb.grad t.1))) ?_ ?_ ?_
  · rintro s s' ⟨h0, h1, h2, h3, h4, h5, h6, h7⟩ hs
    obtain ⟨o, nd, -, ho, hnd, rfl⟩ := Opt.cgStep_next hs
    have hg := hpb.grad _ h0
    have hPg := hpb.precon _ _ h0 hg
    have hd : Tan s.x (cgSearchDir pb s).1 := by
      unfold cgSearchDir
      split
      · rw [h2]; exact hM.neg _ _ h0 hPg
      · exact h5
    obtain ⟨hnx, -⟩ := hls _ _ _ _ _ _ _ h0 hd ho
    have hg' := hpb.grad _ hnx
    have hPg' := hpb.precon _ _ hnx hg'
    have hslope : (cgSearchDir pb s).2 = pb.M.inner s.x (pb.grad s.x) (cgSearchDir pb s).1 ∧
        (cgSearchDir pb s).2 ≤
          -(7 / 8) * pb.M.inner s.x (pb.grad s.x) (pb.precon s.x (pb.grad s.x)) := by
      unfold cgSearchDir
      split
      · simp only [h2, h3, hre _ h0, PyNum.neg, true_and]
        have := (hP.semi _ h0).nonneg _ hg
        linarith
      · simp only [h1, true_and]
        exact h6
    refine ⟨hnx, rfl, rfl, rfl, rfl, ?_, ?_, ?_⟩
    · simp only [cgDirection] at hnd
      split at hnd
      · cases hnd
      · split at hnd
        · cases hnd; exact hM.neg _ _ hnx hPg'
        · split at hnd
          · cases hnd
          · cases hnd
            exact hM.add _ _ _ hnx (hM.neg _ _ hnx hPg')
              (hM.smul _ _ _ hnx (hM.transport _ _ _ h0 hnx hd))
    · have hgg := (hP.semi _ hnx).nonneg _ hg'
      simp only at hgg ⊢
      simp only [cgDirection] at hnd
      split at hnd
      · cases hnd
      · split at hnd
        · cases hnd
          rw [hre _ hnx]
          linarith
        · split at hnd
          · cases hnd
          · rename_i beta hb
            cases hnd
            have hfm := (C11_formulas (name := "HagerZhang") rfl hb _ _ rfl rfl).2.2.2.1 rfl
            simp only at hfm
            have htd := hM.transport _ _ _ h0 hnx hd
            have htg : Tan o.newx (pb.M.transport s.x o.newx s.grad) := by
              rw [h1]; exact hM.transport _ _ _ h0 hnx hg
            have hy : Tan o.newx (pb.grad o.newx - pb.M.transport s.x o.newx s.grad) := by
              have := (hT _ hnx).add hg' ((hT _ hnx).smul (-1) htg)
              rwa [neg_one_smul, ← sub_eq_add_neg] at this
            have hPy : pb.precon o.newx (pb.grad o.newx) - pb.M.transport s.x o.newx s.Pgrad =
                pb.precon o.newx (pb.grad o.newx - pb.M.transport s.x o.newx s.grad) := by
              rw [hP.sub _ _ _ hnx hg' htg, h2, h1, hP.transport _ _ _ h0 hnx hg]
            rw [hops.sub, hops.sub, hPy] at hfm
            have hIn := hI _ hnx
            obtain ⟨d, hdd⟩ : ∃ d, d = pb.M.transport s.x o.newx (cgSearchDir pb s).1 := ⟨_, rfl⟩
            rw [← hdd] at hfm htd ⊢
            have e : pb.M.inner o.newx (pb.grad o.newx)
                (pb.M.add (pb.M.neg (pb.precon o.newx (pb.grad o.newx))) (pb.M.smul beta d)) =
                -pb.M.inner o.newx (pb.grad o.newx) (pb.precon o.newx (pb.grad o.newx)) +
                  beta * pb.M.inner o.newx (pb.grad o.newx) d := by
              have h8 : Tan o.newx (pb.M.neg (pb.precon o.newx (pb.grad o.newx))) :=
                hM.neg _ _ hnx hPg'
              have h9 := (hT _ hnx).smul beta htd
              rw [hops.add, hops.smul, hIn.symm _ _ hg' ((hT _ hnx).add h8 h9),
                hIn.add_left _ _ _ h8 h9 hg', hIn.smul_left _ _ _ htd hg', hIn.symm _ _ h8 hg',
                hre _ hnx, hIn.symm _ _ htd hg']
            rw [e, hfm, hIn.symm d _ htd hg']
            refine hz_slope (fun a => (hP.semi _ hnx).quarter (hT _ hnx) hy hg' a) ?_ hgg
            have h10 : 0 ≤ pb.M.norm o.newx d * min (1 / 100) s.gradientNorm := by
              refine mul_nonneg (hn _ _ hnx htd) (le_min (by norm_num) ?_)
              rw [h4]
              exact hn _ _ h0 hg
            exact div_nonpos_of_nonpos_of_nonneg (by norm_num) h10
    · intro t ht
      rcases List.mem_append.1 ht with ht | ht
      · exact h7 t ht
      · simp only [List.mem_singleton] at ht
        rw [ht]
        exact ⟨h0, hd, hslope⟩
  · rintro s r ⟨h0, h1, h2, h3, h4, h5, h6, h7⟩ hs
    obtain ⟨reason, hc, rfl⟩ := cgStep_brk hs
    exact h7
  · have hg := hpb.grad _ hx
    have hPg := hpb.precon _ _ hx hg
    refine ⟨hx, rfl, rfl, rfl, rfl, hM.neg _ _ hx hPg, ?_, by simp [cgInit]⟩
    have hgg := (hP.semi _ hx).nonneg _ hg
    simp only [cgInit] at hgg ⊢
    rw [hre _ hx]
    linarith

/-- The hypotheses of `C157_descent` on the operators hold for `x ^ 2` on the real line without a
preconditioner. -/
example : VectorOps realSquare.M ∧ ClosedProb realSquare (fun _ => True) (fun _ _ => True) ∧
    PreconOps realSquare (fun _ => True) (fun _ _ => True) :=
  ⟨⟨fun _ _ => rfl, fun _ _ => rfl, fun _ => rfl, fun _ _ => rfl⟩,
    ⟨by constructor <;> intros <;> trivial, fun _ _ => trivial, fun _ _ _ _ => trivial⟩,
    ⟨fun _ _ _ _ _ _ => rfl, fun _ _ _ _ _ _ => rfl, fun _ _ =>
      { add_left := fun u v w _ _ _ => by simp only [realSquare, realMfd]; ring
        smul_left := fun c u v _ _ => by simp only [realSquare, realMfd, smul_eq_mul]; ring
        symm := fun u v _ _ => by simp only [realSquare, realMfd]; ring
        nonneg := fun u _ => by simp only [realSquare, realMfd]; exact mul_self_nonneg u }⟩⟩

/-- **C157** (negation): the other rules do not have this property.  Minimising `x ^ 2` from `2 / 3` with
the Fletcher–Reeves rule and the default `BackTrackingLineSearcher`, a search is made along a direction
with slope `-1/2` times the square of the gradient only. -/
theorem C157_negation : ∃ (cfg : Cfg Q) (res : Result Q Q) (m : Option Q) (calls : List (Q × Q × Q)),
    CGRuns cfg .fletcherReeves (.py 10) (backTracking Q Q defaultBackTracking) squareProb stillClock
      (.npy (2 / 3)) none (.ok (res, m, calls)) ∧
    ∃ t ∈ calls, lt (mul (lit (-(7 / 8))) (squareProb.M.inner t.1 (squareProb.grad t.1)
      (squareProb.precon t.1 (squareProb.grad t.1)))) t.2.2 = true := by
  obtain ⟨r, hr, hp⟩ := exists_of_checkFuel (step := cgStep { defaultCfg with maxIterations := 3 }
    .fletcherReeves (.py 10) (backTracking Q Q defaultBackTracking) squareProb stillClock) (n := 4)
    (s := cgInit { defaultCfg with maxIterations := 3 } squareProb (.npy (2 / 3)) none)
    (p := isOk fun r => r.2.2.any fun t => lt (mul (lit (-(7 / 8))) (squareProb.M.inner t.1
      (squareProb.grad t.1) (squareProb.precon t.1 (squareProb.grad t.1)))) t.2.2) (by decide +kernel)
  obtain ⟨⟨res, m, calls⟩, rfl, hp⟩ := exists_of_isOk hp
  refine ⟨{ defaultCfg with maxIterations := 3 }, res, m, calls, ?_, List.any_eq_true.1 hp⟩
  unfold CGRuns
  exact hr

end Verif.Geo
