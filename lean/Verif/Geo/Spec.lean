/-
Specifications shared by the geometry properties: inner products, orthogonal projections,
symmetric operators.  They do not mention the models.
-/
import Mathlib.Algebra.Module.Basic
import Mathlib.Data.Real.Basic
import Mathlib.Tactic.Linarith
import Mathlib.Tactic.Module
import Mathlib.Tactic.Abel

namespace Verif.Geo

variable {E : Type*} [AddCommGroup E] [Module ℝ E]

/-- A real inner product. -/
structure IsInner (B : E → E → ℝ) : Prop where
  add_left (u v w : E) : B (u + v) w = B u w + B v w
  smul_left (c : ℝ) (u v : E) : B (c • u) v = c * B u v
  symm (u v : E) : B u v = B v u
  nonneg (u : E) : 0 ≤ B u u
  definite (u : E) : B u u = 0 → u = 0

/-- An inner product on the vectors that satisfy `T` (a tangent space). -/
structure IsInnerOn (T : E → Prop) (B : E → E → ℝ) : Prop where
  add_left (u v w : E) : T u → T v → T w → B (u + v) w = B u w + B v w
  smul_left (c : ℝ) (u v : E) : T u → T v → B (c • u) v = c * B u v
  symm (u v : E) : T u → T v → B u v = B v u
  nonneg (u : E) : T u → 0 ≤ B u u
  definite (u : E) : T u → B u u = 0 → u = 0

/-- A linear subspace, as a predicate. -/
structure IsSubspace (T : E → Prop) : Prop where
  zero : T 0
  add {u v : E} : T u → T v → T (u + v)
  smul (c : ℝ) {u : E} : T u → T (c • u)

/-- `P` is the orthogonal projection onto the subspace `T` with respect to `B`. -/
structure IsOrthProj (B : E → E → ℝ) (T : E → Prop) (P : E → E) : Prop where
  add (u v : E) : P (u + v) = P u + P v
  smul (c : ℝ) (v : E) : P (c • v) = c • P v
  mem (v : E) : T (P v)
  fixes {v : E} : T v → P v = v
  symm (u v : E) : B (P u) v = B u (P v)
  nearest (v : E) {w : E} : T w → B (v - P v) (v - P v) ≤ B (v - w) (v - w)
  unique (v : E) {w : E} : T w → B (v - w) (v - w) ≤ B (v - P v) (v - P v) → w = P v
  represents (g : E) {w : E} : T w → B (P g) w = B g w

namespace IsInner
variable {B : E → E → ℝ} (h : IsInner B)
include h

theorem add_right (u v w : E) : B u (v + w) = B u v + B u w := by
  rw [h.symm, h.add_left, h.symm v, h.symm w]

theorem smul_right (c : ℝ) (u v : E) : B u (c • v) = c * B u v := by
  rw [h.symm, h.smul_left, h.symm]

theorem neg_left (u v : E) : B (-u) v = -B u v := by
  have := h.smul_left (-1) u v
  simpa using this

theorem neg_right (u v : E) : B u (-v) = -B u v := by
  rw [h.symm, h.neg_left, h.symm]

theorem sub_left (u v w : E) : B (u - v) w = B u w - B v w := by
  rw [sub_eq_add_neg, h.add_left, h.neg_left]; ring

theorem sub_right (u v w : E) : B u (v - w) = B u v - B u w := by
  rw [h.symm, h.sub_left, h.symm v, h.symm w]

theorem zero_left (u : E) : B 0 u = 0 := by
  have := h.smul_left 0 0 u
  simpa using this

theorem zero_right (u : E) : B u 0 = 0 := by
  rw [h.symm, h.zero_left]

theorem eq_zero_iff (u : E) : B u u = 0 ↔ u = 0 :=
  ⟨h.definite u, by rintro rfl; exact h.zero_left 0⟩

/-- Cauchy–Schwarz. -/
theorem cauchy (u v : E) : B u v ^ 2 ≤ B u u * B v v := by
  by_cases hv : B v v = 0
  · rw [(h.eq_zero_iff v).mp hv]
    simp [h.zero_right]
  · have hpos : 0 < B v v := lt_of_le_of_ne (h.nonneg v) (Ne.symm hv)
    have := h.nonneg (B v v • u - B u v • v)
    simp only [h.sub_left, h.sub_right, h.smul_left, h.smul_right, h.symm v u] at this
    nlinarith [this, hpos]

theorem on (T : E → Prop) : IsInnerOn T B :=
  ⟨fun u v w _ _ _ => h.add_left u v w, fun c u v _ _ => h.smul_left c u v,
    fun u v _ _ => h.symm u v, fun u _ => h.nonneg u, fun u _ => h.definite u⟩

/-- A map into a subspace whose residual is orthogonal to it is the orthogonal projection. -/
theorem orthProj {T : E → Prop} (hT : IsSubspace T) {P : E → E} (mem : ∀ v, T (P v))
    (orth : ∀ v w, T w → B (v - P v) w = 0) : IsOrthProj B T P := by
  have sub : ∀ {u v : E}, T u → T v → T (u - v) := by
    intro u v hu hv
    have := hT.add hu (hT.smul (-1) hv)
    simpa [sub_eq_add_neg] using this
  have zero_of : ∀ d : E, T d → (∀ w, T w → B d w = 0) → d = 0 :=
    fun d hd hw => h.definite d (hw d hd)
  have rep : ∀ g w, T w → B (P g) w = B g w := by
    intro g w hw
    have := orth g w hw
    rw [h.sub_left] at this
    linarith
  have add : ∀ u v, P (u + v) = P u + P v := by
    intro u v
    have : P (u + v) - (P u + P v) = 0 := by
      apply zero_of _ (sub (mem _) (hT.add (mem _) (mem _)))
      intro w hw
      rw [h.sub_left, h.add_left, rep _ _ hw, rep _ _ hw, rep _ _ hw, h.add_left]
      ring
    exact sub_eq_zero.mp this
  have smul : ∀ (c : ℝ) v, P (c • v) = c • P v := by
    intro c v
    have : P (c • v) - c • P v = 0 := by
      apply zero_of _ (sub (mem _) (hT.smul c (mem _)))
      intro w hw
      rw [h.sub_left, h.smul_left, rep _ _ hw, rep _ _ hw, h.smul_left]
      ring
    exact sub_eq_zero.mp this
  have pyth : ∀ v w, T w →
      B (v - w) (v - w) = B (v - P v) (v - P v) + B (P v - w) (P v - w) := by
    intro v w hw
    have h1 := orth v (P v - w) (sub (mem v) hw)
    have h2 : v - w = (v - P v) + (P v - w) := by abel
    rw [h2, h.add_left, h.add_right, h.add_right, h1, h.symm (P v - w) (v - P v), h1]
    ring
  refine ⟨add, smul, mem, ?_, ?_, ?_, ?_, fun g w => rep g w⟩
  · intro v hv
    have : v - P v = 0 := zero_of _ (sub hv (mem v)) (orth v)
    exact (sub_eq_zero.mp this).symm
  · intro u v
    rw [h.symm (P u) v, ← rep v (P u) (mem u), h.symm, rep u (P v) (mem v)]
  · intro v w hw
    rw [pyth v w hw]
    linarith [h.nonneg (P v - w)]
  · intro v w hw hle
    rw [pyth v w hw] at hle
    have : B (P v - w) (P v - w) = 0 := le_antisymm (by linarith) (h.nonneg _)
    exact (sub_eq_zero.mp (h.definite _ this)).symm

end IsInner

/-- `A` maps `T` into `T` and is symmetric with respect to `B` there. -/
structure IsSymmOn (B : E → E → ℝ) (T : E → Prop) (A : E → E) : Prop where
  mem {v : E} : T v → T (A v)
  symm {u v : E} : T u → T v → B u (A v) = B (A u) v

end Verif.Geo
