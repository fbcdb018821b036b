/-
C121 on products: where the squared distances of the factors have their logarithms as gradients,
so has the squared distance of the product.
-/
import Mathlib.Analysis.Calculus.Deriv.Add
import Mathlib.Analysis.Calculus.Deriv.Mul
import Verif.Geo.Props.Metric

namespace Verif.Geo
open Verif.Core

variable {A : Type*} [PyArr A] {ms : List (PyMfd A)}

/-- **C121** (products): let a curve of points start at `ps 0`, and let, on every factor, half the
squared distance to the point of `qs` have the derivative `-⟨l, v⟩`, `l` being the logarithm of that
factor.  Then so has half the squared distance of the product. -/
theorem C121_product {ps : ℝ → List (Val A)} {qs vs : List (Val A)}
    (hp : ∀ t, (ps t).length = ms.length) (hq : qs.length = ms.length) (hv : vs.length = ms.length)
    (k k' k'' : SeqKind) {δ : ℝ → ℝ}
    (hδ : ∀ t, prodDist ms (.seq k (ps t)) (.seq k' qs) = .ok (δ t)) {l : Val A}
    (hl : prodLog ms (.seq k (ps 0)) (.seq k' qs) = .ok l)
    (hd : ∀ (i : ℕ) (M : PyMfd A) (q v w : Val A) (x : ℝ → Val A) (d : ℝ → ℝ), ms[i]? = some M →
      qs[i]? = some q → vs[i]? = some v → (∀ t, (ps t)[i]? = some (x t)) →
      (∀ t, M.dist (x t) q = .ok (d t)) → M.log (x 0) q = .ok w →
      ∃ g, M.inner (x 0) w v = .ok g ∧ HasDerivAt (fun t => d t ^ 2 / 2) (-g) 0) :
    ∃ g, prodInner ms (.seq k (ps 0)) l (.seq k'' vs) = .ok g ∧
      HasDerivAt (fun t => δ t ^ 2 / 2) (-g) 0 := by
  have h1 := fun t => (prodDist_ok_iff (hp t) hq k k' (δ t)).1 (hδ t)
  choose d hd' hδ' using h1
  obtain ⟨ls, ⟨hlen, hls⟩, rfl⟩ := (C45_componentwise (hp 0) hq k k' l).2.2.2.2.2.1.1 hl
  have h2 : ∀ i : Fin ms.length, ∃ g, ms[i].inner ((ps 0)[i.1]'(by rw [hp]; exact i.2))
      (ls[i.1]'(by rw [hlen]; exact i.2)) (vs[i.1]'(by rw [hv]; exact i.2)) = .ok g ∧
      HasDerivAt (fun t => d t i ^ 2 / 2) (-g) 0 := by
    intro i
    refine hd i ms[i] (qs[i.1]'(by rw [hq]; exact i.2)) (vs[i.1]'(by rw [hv]; exact i.2))
      (ls[i.1]'(by rw [hlen]; exact i.2)) (fun t => (ps t)[i.1]'(by rw [hp]; exact i.2))
      (fun t => d t i) (List.getElem?_eq_getElem _) (List.getElem?_eq_getElem _)
      (List.getElem?_eq_getElem _) (fun t => List.getElem?_eq_getElem _) (fun t => hd' t i) ?_
    exact hls i ms[i] _ _ _ (List.getElem?_eq_getElem _) (List.getElem?_eq_getElem _)
      (List.getElem?_eq_getElem _) (List.getElem?_eq_getElem _)
  choose g hg hD using h2
  refine ⟨∑ i, g i, ?_, ?_⟩
  · refine (C45_metric (hp 0) hlen hv k .productTV k'' _).1.2 ⟨List.ofFn g, ⟨by simp, ?_⟩, ?_⟩
    · intro i M p v w r hM hp' hv' hw' hr
      obtain ⟨hi, rfl⟩ := List.getElem?_eq_some_iff.mp hM
      obtain ⟨_, rfl⟩ := List.getElem?_eq_some_iff.mp hp'
      obtain ⟨_, rfl⟩ := List.getElem?_eq_some_iff.mp hv'
      obtain ⟨_, rfl⟩ := List.getElem?_eq_some_iff.mp hw'
      obtain ⟨_, rfl⟩ := List.getElem?_eq_some_iff.mp hr
      simpa using hg ⟨i, hi⟩
    · rw [List.sum_ofFn]
  · have h3 : ∀ t, δ t ^ 2 / 2 = ∑ i, d t i ^ 2 / 2 := by
      intro t
      rw [hδ', Real.sq_sqrt (Finset.sum_nonneg fun _ _ => sq_nonneg _), Finset.sum_div]
    simp only [h3]
    have h4 := HasDerivAt.fun_sum (u := Finset.univ) fun i (_ : i ∈ Finset.univ) => hD i
    rwa [Finset.sum_neg_distrib] at h4

end Verif.Geo
