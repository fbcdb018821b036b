/-
C126 on products: the quadratic model of trust regions on a product of manifolds, with a cost that
couples the factors.
-/
import Verif.Geo.Props.SecondOrderMat
import Verif.Geo.Model.OptMfd

namespace Verif.Geo
open scoped BigOperators Topology
open Matrix Filter Asymptotics Verif.Opt

/-! ### Specification -/

section
variable {k : ℕ} {E : Fin k → Type*}

/-- `G` is the Euclidean gradient of a function of several arrays, `H` its Euclidean Hessian in
direction `v`, to second order: `ETaylor` for families of arrays.  `J i` expresses expansions of curves
of arrays of the kind of the `i`-th one, `dot i` is their Euclidean inner product. -/
def ETaylorProd (J : ∀ i, (ℝ → E i) → E i → E i → E i → Prop) (dot : ∀ i, E i → E i → ℝ)
    (f : (∀ i, E i) → ℝ) (x G v H : ∀ i, E i) : Prop :=
  ∀ (c : ℝ → ∀ i, E i) (a : ∀ i, E i), (∀ i, J i (fun t => c t i) (x i) (v i) (a i)) →
    Jet2 (fun t => f (c t)) (f x) (∑ i, dot i (G i) (v i))
      (∑ i, dot i (H i) (v i) + ∑ i, dot i (G i) (a i))

/-! ### C126 -/

variable {Ms : ∀ i, Mfd ℝ (E i) (E i)}
  {e2rg : ∀ i, E i → E i → E i} {e2rh : ∀ i, E i → E i → E i → E i → E i}
  {J : ∀ i, (ℝ → E i) → E i → E i → E i → Prop} {dot : ∀ i, E i → E i → ℝ}
  {cost : (∀ i, E i) → ℝ} {egrad : (∀ i, E i) → ∀ i, E i}
  {ehess : (∀ i, E i) → (∀ i, E i) → ∀ i, E i} {x v : ∀ i, E i}

/-- **C126** (products, along any curves, such as those of `exp`): if on every factor the derivatives
along its curve are those given by the converted gradient and Hessian, the same holds for the product
and every cost, which may couple the factors in any way. -/
theorem C126_product_curves {c : ∀ i, ℝ → E i}
    (hM : ∀ i, SecondOrder (J i) (dot i) (c i) (x i) (v i) (egrad x i) (ehess x v i)
      ((Ms i).inner (x i) (e2rg i (x i) (egrad x i)) (v i))
      ((Ms i).inner (x i) (e2rh i (x i) (egrad x i) (ehess x v i) (v i)) (v i)))
    (hf : ETaylorProd J dot cost x (egrad x) v (ehess x v)) :
    let pb := productProb Ms e2rg e2rh (fun _ _ v => v) cost egrad ehess
    Jet2 (fun t => pb.cost fun i => c i t) (pb.cost x) (pb.M.inner x (pb.grad x) v)
      (pb.M.inner x (pb.hess x v) v) := by
  choose a hc h1 h2 using hM
  refine (hf (fun t i => c i t) a hc).congr_jet rfl ?_ ?_
  · exact Finset.sum_congr rfl fun i _ => (h1 i).symm
  · rw [← Finset.sum_add_distrib]
    exact Finset.sum_congr rfl fun i _ => (h2 i).symm

/-- **C126** (products, along the retraction). -/
theorem C126_product [∀ i, AddCommGroup (E i)] [∀ i, Module ℝ (E i)]
    (hM : ∀ i, SecondOrder (J i) (dot i) (fun t => (Ms i).retraction (x i) (t • v i)) (x i) (v i)
      (egrad x i) (ehess x v i) ((Ms i).inner (x i) (e2rg i (x i) (egrad x i)) (v i))
      ((Ms i).inner (x i) (e2rh i (x i) (egrad x i) (ehess x v i) (v i)) (v i)))
    (hf : ETaylorProd J dot cost x (egrad x) v (ehess x v)) :
    let pb := productProb Ms e2rg e2rh (fun _ _ v => v) cost egrad ehess
    Jet2 (fun t => pb.cost (pb.M.retraction x (t • v))) (pb.cost x) (pb.M.inner x (pb.grad x) v)
      (pb.M.inner x (pb.hess x v) v) :=
  C126_product_curves (c := fun i t => (Ms i).retraction (x i) (t • v i)) hM hf

end

/-! ### Concrete cases -/

/-- Functions of several real arrays have the expansion if they have it as functions of one long array:
in particular twice differentiable ones (`ETaylor.of_contDiffAt`). -/
theorem ETaylorProd.of_arrays {k : ℕ} {ι : Fin k → Type*} [∀ i, Fintype (ι i)]
    {f : (∀ i, ι i → ℝ) → ℝ} {x G v H : ∀ i, ι i → ℝ}
    (hf : ETaylor (fun y : (Σ i, ι i) → ℝ => f fun i j => y ⟨i, j⟩) (fun j => x j.1 j.2)
      (fun j => G j.1 j.2) (fun j => v j.1 j.2) fun j => H j.1 j.2) :
    ETaylorProd (fun _ => ArrJet2) (fun _ => tensordot) f x G v H := by
  intro c a hc
  have := hf.apply_real (c := fun t j => c t j.1 j.2) (a := fun j => a j.1 j.2) fun j => hc j.1 j.2
  simp only [tensordot, Fintype.sum_sigma] at this
  exact this

/-- On the product of a circle and the positive pairs of numbers, the product of a coordinate of each:
the derivatives along the retraction are 1 and 2. -/
example : Jet2 (fun t : ℝ => sphereRetraction ![1, 0] (t • (![0, 1] : Fin 2 → ℝ)) 1 *
    posRetract ![1, 2] (t • (![1, 1] : Fin 2 → ℝ)) 0) 0 1 2 := by
  have hx : OnSphere (![1, 0] : Fin 2 → ℝ) := by
    simp [OnSphere, Fin.sum_univ_succ]
  have hv : SphereTangent (![1, 0] : Fin 2 → ℝ) ![0, 1] := by
    simp [SphereTangent, Fin.sum_univ_succ]
  have hp : PosPoint (![1, 2] : Fin 2 → ℝ) := by
    intro i; fin_cases i <;> simp
  have h := C126_product (k := 2) (E := fun _ => Fin 2 → ℝ)
    (Ms := ![sphereMfd 0, positiveMfd 2 false fun x _ => x])
    (e2rg := ![sphereE2rg, posE2rg]) (e2rh := ![sphereE2rh, posE2rh])
    (J := fun _ => ArrJet2) (dot := fun _ => tensordot)
    (cost := fun y => y 0 1 * y 1 0) (egrad := fun y => ![![0, y 1 0], ![y 0 1, 0]])
    (ehess := fun _ w => ![![0, w 1 0], ![w 0 1, 0]])
    (x := ![![1, 0], ![1, 2]]) (v := ![![0, 1], ![1, 1]])
    (fun i => by
      fin_cases i
      · exact (C126_factor_sphere hx hv _ _).2
      · exact (C126_factor_positive hp _ _ _).2)
    (fun c a hc => by
      refine ((hc 0 1).mul (hc 1 0)).congr_jet rfl ?_ ?_
      · simp [tensordot, Fin.sum_univ_succ]
      · simp [tensordot, Fin.sum_univ_succ]; ring)
  refine h.congr_jet (by simp [productProb, arrayProb]) ?_ ?_
  · simp only [productProb, arrayProb, productMfd]
    rw [Fin.sum_univ_two]
    change sphereInner ![1, 0] (sphereE2rg ![1, 0] ![0, 1]) ![0, 1] +
      posInner ![1, 2] (posE2rg ![1, 2] ![0, 0]) ![1, 1] = 1
    rw [show sphereInner (![1, 0] : Fin 2 → ℝ) _ _ = _ from (C56_tangent _ hx ![1, 0] _ _).2.2.2 hv]
    simp [posInner, posE2rg, tensordot, Fin.sum_univ_succ]
  · simp only [productProb, arrayProb, productMfd]
    rw [Fin.sum_univ_two]
    change sphereInner ![1, 0] (sphereE2rh ![1, 0] ![0, 1] ![0, 1] ![0, 1]) ![0, 1] +
      posInner ![1, 2] (posE2rh ![1, 2] ![0, 0] ![1, 0] ![1, 1]) ![1, 1] = 2
    rw [show sphereInner (![1, 0] : Fin 2 → ℝ) _ _ = _ from sphere_hess_form hx hv _ _]
    simp [posInner, posE2rh, tensordot, Fin.sum_univ_succ]
    norm_num

end Verif.Geo
