/-
C143: dist and log give numbers also for points with rounding errors.
-/
import Verif.Geo.Model.Rounding
import Verif.Geo.Model.Sphere
import Verif.Geo.Model.Oblique
import Verif.Geo.Model.ComplexCircle
import Verif.Geo.Model.Grassmann
import Verif.Geo.Model.Hyperbolic
import Verif.Geo.Model.Positive
import Verif.Geo.Props.Hyperbolic

namespace Verif.Geo
open scoped BigOperators
open Matrix

/-- What is used of an arithmetic: signs come out right.  Every IEEE arithmetic satisfies this as
long as nothing under- or overflows. -/
structure SignLaws {K : Type*} [Field K] [LinearOrder K] (A : Arith K) : Prop where
  mul_self : ∀ x, 0 ≤ A.mul x x
  mul_nonneg : ∀ {x y}, 0 ≤ x → 0 ≤ y → 0 ≤ A.mul x y
  mul_pos : ∀ {x y}, 0 < x → 0 < y → 0 < A.mul x y
  add_pos : ∀ {x y}, 0 ≤ x → 0 < y → 0 < A.add x y
  one_le_add : ∀ {y}, 0 ≤ y → 1 ≤ A.add 1 y
  sub_pos : ∀ {x}, x < 1 → 0 < A.sub 1 x
  div_nonneg : ∀ {x y}, 0 ≤ x → 0 < y → 0 ≤ A.div x y
  div_pos : ∀ {x y}, 0 < x → 0 < y → 0 < A.div x y
  sum_nonneg : ∀ {l : List K}, (∀ x ∈ l, 0 ≤ x) → 0 ≤ A.sum l
  sqrt_nonneg : ∀ {x}, 0 ≤ x → 0 ≤ A.sqrt x
  acos_nonneg : ∀ {x}, -1 ≤ x → x ≤ 1 → 0 ≤ A.acos x

theorem exactArith_signLaws : SignLaws exactArith where
  mul_self x := mul_self_nonneg x
  mul_nonneg := fun hx hy => mul_nonneg hx hy
  mul_pos := fun hx hy => mul_pos hx hy
  add_pos := fun hx hy => add_pos_of_nonneg_of_pos hx hy
  one_le_add := fun hy => le_add_of_nonneg_right hy
  sub_pos := fun hx => sub_pos.2 hx
  div_nonneg := fun hx hy => div_nonneg hx hy.le
  div_pos := fun hx hy => div_pos hx hy
  sum_nonneg := fun h => List.sum_nonneg h
  sqrt_nonneg := fun _ => Real.sqrt_nonneg _
  acos_nonneg := fun _ _ => Real.arccos_nonneg _

theorem b64Arith_signLaws {acos acosh atanh log : ℚ → ℚ} (h : ∀ x, 0 ≤ acos x) :
    SignLaws (b64Arith acos acosh atanh log) where
  mul_self x := b64_nonneg (mul_self_nonneg x)
  mul_nonneg := fun hx hy => b64_nonneg (mul_nonneg hx hy)
  mul_pos := fun hx hy => b64_pos (mul_pos hx hy)
  add_pos := fun hx hy => b64_pos (add_pos_of_nonneg_of_pos hx hy)
  one_le_add := fun hy => one_le_b64 (le_add_of_nonneg_right hy)
  sub_pos := fun hx => b64_pos (sub_pos.2 hx)
  div_nonneg := fun hx hy => b64_nonneg (div_nonneg hx hy.le)
  div_pos := fun hx hy => b64_pos (div_pos hx hy)
  sum_nonneg := by
    intro l h
    cases l with
    | nil => exact le_rfl
    | cons x l =>
      have key : ∀ (l : List ℚ) (s : ℚ), 0 ≤ s → (∀ x ∈ l, 0 ≤ x) →
          0 ≤ l.foldl (fun s x => b64 (s + x)) s := by
        intro l
        induction l with
        | nil => exact fun s hs _ => hs
        | cons y l ih =>
          intro s hs hl
          exact ih _ (b64_nonneg (add_nonneg hs (hl y (by simp)))) fun x hx => hl x (by simp [hx])
      exact key l x (h x (by simp)) fun y hy => h y (by simp [hy])
  sqrt_nonneg := fun _ => b64Sqrt_nonneg _
  acos_nonneg := fun _ _ => h _

section
variable {m n k : ℕ}

theorem allSome_isSome {α : Type*} {f : Fin n → Option α} :
    (allSome f).isSome ↔ ∀ i, (f i).isSome := by
  unfold allSome
  split <;> simp_all

theorem allSome_some {α : Type*} (g : Fin n → α) : allSome (fun i => some (g i)) = some g := by
  unfold allSome
  simp

theorem allSome_eq {α : Type*} {f : Fin n → Option α} {g : Fin n → α}
    (h : ∀ i, f i = some (g i)) : allSome f = some g := by
  rw [show f = fun i => some (g i) from funext h, allSome_some]

theorem of_allSome {α : Type*} {f : Fin n → Option α} {g : Fin n → α}
    (h : allSome f = some g) (i : Fin n) : f i = some (g i) := by
  unfold allSome at h
  split at h
  · cases h; simp
  · cases h

end

section
variable {K : Type*} [Field K] [LinearOrder K] {A : Arith K} {m n k : ℕ}

theorem dotFl_self_nonneg (h : SignLaws A) (a : Fin n → K) : 0 ≤ dotFl A a a := by
  refine h.sum_nonneg fun x hx => ?_
  obtain ⟨i, rfl⟩ := (List.mem_ofFn' _ _).1 hx
  exact h.mul_self _

theorem normFl_some (h : SignLaws A) (a : Fin n → K) : ∃ r, normFl A a = some r ∧ 0 ≤ r :=
  ⟨_, if_pos (dotFl_self_nonneg h a), h.sqrt_nonneg (dotFl_self_nonneg h a)⟩

theorem normFl_isSome (h : SignLaws A) (a : Fin n → K) : (normFl A a).isSome := by
  obtain ⟨r, hr, -⟩ := normFl_some h a
  simp [hr]

omit [Field K] in
theorem bind_isSome {α β : Type*} {x : Option α} {f : α → Option β} (hf : ∀ a, (f a).isSome) :
    (x.bind f).isSome ↔ x.isSome := by
  cases x <;> simp [hf]

variable [IsStrictOrderedRing K]

theorem clip_mem (x : K) : -1 ≤ max (min x 1) (-1) ∧ max (min x 1) (-1) ≤ 1 :=
  ⟨le_max_right _ _, max_le (min_le_right _ _) (by linarith [zero_lt_one (α := K)])⟩

/-- **C143** On spheres `dist` and `log` give numbers for all arrays whatsoever, in every arithmetic
with correct signs: neither rounding of the points nor of the inner product leads to NaN. -/
theorem C143_sphere (h : SignLaws A) {eps : K} (heps : 0 < eps) (a b : Fin n → K) :
    (sphereDistFl A a b).isSome ∧ (sphereLogFl A eps a b).isSome := by
  obtain ⟨h1, h2⟩ := clip_mem (dotFl A a b)
  have hd : sphereDistFl A a b = some (A.acos (max (min (dotFl A a b) 1) (-1))) :=
    if_pos ⟨h1, h2⟩
  refine ⟨by simp [hd], ?_⟩
  unfold sphereLogFl
  simp only
  obtain ⟨r, hr, hr0⟩ := normFl_some h (sphereProjFl A a fun i => A.sub (b i) (a i))
  rw [hd, hr]
  simp [Arith.divO, (h.add_pos hr0 heps).ne']

/-- **C143** On Grassmann manifolds `dist` gives a number, whatever non-negative numbers LAPACK
returns as singular values. -/
theorem C143_grassmann (h : SignLaws A) {s : Fin n → K} (hs : ∀ i, 0 ≤ s i) :
    (grDistFl A s).isSome := by
  rw [grDistFl, bind_isSome fun d => normFl_isSome h d, allSome_isSome]
  intro i
  unfold Arith.acosO
  rw [if_pos]
  · rfl
  · have := hs i
    split
    · exact ⟨by linarith [zero_lt_one (α := K)], le_rfl⟩
    · rename_i hc
      exact ⟨by linarith [zero_lt_one (α := K)], not_lt.1 hc⟩

/-- **C143** In the Poincaré ball `dist` gives a number for all points whose computed squared norms
are below 1. -/
theorem C143_poincare_dist (h : SignLaws A) {a b : Fin k → Fin n → K}
    (ha : ∀ l, ∀ r ∈ normSqFl A (a l), r < 1) (hb : ∀ l, ∀ r ∈ normSqFl A (b l), r < 1) :
    (pbDistFl A a b).isSome := by
  rw [pbDistFl, bind_isSome fun d => normFl_isSome h d, allSome_isSome]
  intro l
  have hn : ∀ x : Fin n → K, ∃ r, normSqFl A x = some r ∧ 0 ≤ r := by
    intro x
    obtain ⟨r, hr, -⟩ := normFl_some h x
    exact ⟨_, by rw [normSqFl, hr]; rfl, h.mul_self _⟩
  obtain ⟨ra, hra, -⟩ := hn (a l)
  obtain ⟨rb, hrb, -⟩ := hn (b l)
  obtain ⟨rd, hrd, hrd0⟩ := hn fun i => A.sub (a l i) (b l i)
  have h1 := h.sub_pos (ha l ra (by rw [hra]; rfl))
  have h2 := h.sub_pos (hb l rb (by rw [hrb]; rfl))
  have h3 := h.mul_pos h1 h2
  have h4 : 1 ≤ A.add 1 (A.div (A.mul 2 rd) (A.mul (A.sub 1 ra) (A.sub 1 rb))) :=
    h.one_le_add (h.div_nonneg (h.mul_nonneg zero_le_two hrd0) h3)
  simp [pbDist1Fl, hra, hrb, hrd, Arith.divO, h3.ne', Arith.acoshO, h4]

omit [IsStrictOrderedRing K] in
/-- **C143** For positive arrays `dist` and `log` give numbers. -/
theorem C143_positive (h : SignLaws A) {a b : Fin n → K} (ha : ∀ i, 0 < a i)
    (hb : ∀ i, 0 < b i) : (posDistFl A a b).isSome ∧ (posLogFl A a b).isSome := by
  constructor
  · rw [posDistFl, bind_isSome, allSome_isSome]
    · intro i
      simp [Arith.logO, ha i, hb i]
    · intro r
      simp [Arith.sqrtO, dotFl_self_nonneg h r]
  · rw [posLogFl, allSome_isSome]
    intro i
    simp [Arith.logO, ha i, hb i]

/-- **C143** (oblique manifold; partial) `dist` gives a number exactly if no computed inner product
of columns is below -1: the code caps them at 1 only.  `log` gives numbers exactly for the columns
whose computed inner product is in `[-1, 1]`: the code does not cap it.  What is missing: computed
inner products of unit columns can be outside, see `C143_negation_oblique`. -/
theorem C143_oblique_partial (h : SignLaws A) {eps : K} (heps : 0 < eps)
    (a b : Fin m → Fin n → K) :
    ((oblDistFl A a b).isSome ↔ ∀ j, -1 ≤ colSumsFl A a b j) ∧
    ∀ j, (oblLogFl A eps a b j).isSome ↔ -1 ≤ colSumsFl A a b j ∧ colSumsFl A a b j ≤ 1 := by
  have h1 := zero_lt_one (α := K)
  constructor
  · rw [oblDistFl, bind_isSome fun d => normFl_isSome h d, allSome_isSome]
    refine forall_congr' fun j => ?_
    unfold Arith.acosO
    split_ifs with h2 h3 h3
    · exact ⟨fun _ => by linarith, fun _ => rfl⟩
    · exact absurd ⟨by linarith, le_rfl⟩ h3
    · exact ⟨fun _ => h3.1, fun _ => rfl⟩
    · exact ⟨fun h => by simp at h, fun h => absurd ⟨h, not_lt.1 h2⟩ h3⟩
  · intro j
    unfold oblLogFl
    simp only
    rw [bind_isSome]
    · unfold Arith.acosO
      split_ifs with h2
      · exact ⟨fun _ => h2, fun _ => rfl⟩
      · exact ⟨fun h => by simp at h, fun h => absurd h h2⟩
    · intro d
      have hn : 0 ≤ colSumsFl A (oblProjFl A a fun i j => A.sub (b i j) (a i j))
          (oblProjFl A a fun i j => A.sub (b i j) (a i j)) j := by
        refine h.sum_nonneg fun x hx => ?_
        obtain ⟨i, rfl⟩ := (List.mem_ofFn' _ _).1 hx
        exact h.mul_self _
      simp [Arith.sqrtO, hn, Arith.divO, (h.add_pos (h.sqrt_nonneg hn) heps).ne']

omit [IsStrictOrderedRing K] in
/-- **C143** (complex circle; partial) `dist` gives a number exactly if all computed inner products
of entries are in `[-1, 1]`: the code does not cap them; `log` gives NaN for the other entries.
What is missing: computed inner products can be outside even for equal points, see
`C143_negation_complexCircle`. -/
theorem C143_complexCircle_partial (h : SignLaws A) (a b : Fin n → K × K) (tiny : K) :
    ((ccDistFl A a b).isSome ↔
      ∀ i, -1 ≤ reConjMulFl A (a i) (b i) ∧ reConjMulFl A (a i) (b i) ≤ 1) ∧
    ∀ i, (ccLogFl A tiny (a i) (b i)).isSome →
      -1 ≤ reConjMulFl A (a i) (b i) ∧ reConjMulFl A (a i) (b i) ≤ 1 := by
  constructor
  · rw [ccDistFl, bind_isSome fun d => normFl_isSome h d, allSome_isSome]
    refine forall_congr' fun i => ?_
    unfold Arith.acosO
    split_ifs with h2
    · exact ⟨fun _ => h2, fun _ => rfl⟩
    · exact ⟨fun h => by simp at h, fun h => absurd h h2⟩
  · intro i hi
    by_contra hc
    simp [ccLogFl, Arith.acosO, hc] at hi

end

/-! ### Exact arithmetic gives the definitions of the other files -/

section
variable {m n k : ℕ}

theorem dotFl_exact (a b : Fin n → ℝ) : dotFl exactArith a b = tensordot a b := by
  simp [dotFl, exactArith, tensordot, List.sum_ofFn]

theorem normFl_exact (a : Fin n → ℝ) : normFl exactArith a = some (npNorm a) := by
  have h : 0 ≤ dotFl exactArith a a := dotFl_self_nonneg exactArith_signLaws a
  rw [normFl, Arith.sqrtO, if_pos h, dotFl_exact]
  simp [exactArith, npNorm, tensordot, sq]

theorem colSumsFl_exact (a b : Fin m → Fin n → ℝ) (j : Fin n) :
    colSumsFl exactArith a b j = colSums (of a) (of b) j := by
  simp [colSumsFl, exactArith, colSums, List.sum_ofFn]

theorem reConjMulFl_exact (a b : ℝ × ℝ) :
    reConjMulFl exactArith a b = (star (⟨a.1, a.2⟩ : ℂ) * ⟨b.1, b.2⟩).re := by
  simp [reConjMulFl, exactArith]

/-- Exact arithmetic on the sphere: the same distance and logarithm as `sphereDist`, `sphereLog`. -/
theorem C143_exact_sphere {eps : ℝ} (heps : 0 < eps) (a b : Fin n → ℝ) :
    sphereDistFl exactArith a b = some (sphereDist a b) ∧
    sphereLogFl exactArith eps a b = some (sphereLog sphereProj eps a b) ∧
    (a ≠ 0 → sphereNormalizeFl exactArith a = some (sphereNormalize a)) := by
  have hd : sphereDistFl exactArith a b = some (sphereDist a b) := by
    rw [sphereDistFl, Arith.acosO, if_pos (clip_mem _), dotFl_exact]
    rfl
  have hp : (sphereProjFl exactArith a fun i => exactArith.sub (b i) (a i)) =
      sphereProj a (b - a) := by
    funext i
    simp only [sphereProjFl, dotFl_exact]
    simp [exactArith, sphereProj, sphereInner, Pi.sub_def]
  refine ⟨hd, ?_, fun ha => ?_⟩
  · have h0 : npNorm (sphereProj a (b - a)) + eps ≠ 0 :=
      (add_pos_of_nonneg_of_pos (npNorm_nonneg _) heps).ne'
    simp only [sphereLogFl, hp, hd, normFl_exact]
    simp only [Option.bind_some, Arith.divO]
    rw [if_neg (by exact h0)]
    simp only [Option.map_some, exactArith, sphereLog, sphereNorm]
    rfl
  · have h0 : npNorm a ≠ 0 := fun h => ha ((npNorm_eq_zero a).1 h)
    rw [sphereNormalizeFl, normFl_exact, Option.bind_some]
    refine allSome_eq fun i => ?_
    rw [Arith.divO, if_neg h0]
    simp [exactArith, sphereNormalize, div_eq_inv_mul]

/-- Exact arithmetic on the oblique manifold: for unit columns the same distance and logarithm as
`oblDist`, `oblLog`. -/
theorem C143_exact_oblique {eps : ℝ} (heps : 0 < eps) (a b : Fin m → Fin n → ℝ)
    (ha : ∀ j, ∑ i, a i j ^ 2 = 1) (hb : ∀ j, ∑ i, b i j ^ 2 = 1) :
    oblDistFl exactArith a b = some (oblDist (of a) (of b)) ∧
    ∀ j, oblLogFl exactArith eps a b j = some fun i => oblLog eps (of a) (of b) i j := by
  have hc : ∀ j, -1 ≤ colSums (of a) (of b) j ∧ colSums (of a) (of b) j ≤ 1 := by
    intro j
    have := Finset.sum_mul_sq_le_sq_mul_sq Finset.univ (fun i => a i j) (fun i => b i j)
    rw [ha, hb, mul_one] at this
    exact abs_le.1 ((sq_le_one_iff_abs_le_one _).1 this)
  constructor
  · rw [oblDistFl, allSome_eq (g := fun j => Real.arccos (if 1 < colSums (of a) (of b) j then 1
      else colSums (of a) (of b) j))]
    · rw [Option.bind_some, normFl_exact]; rfl
    · intro j
      rw [colSumsFl_exact, if_neg (not_lt.2 (hc j).2), Arith.acosO, if_pos (hc j)]
      rfl
  · intro j
    have hv : (oblProjFl exactArith a fun i j => exactArith.sub (b i j) (a i j)) =
        oblProj (of a) (of b - of a) := by
      funext i j
      simp only [oblProjFl, colSumsFl_exact]
      simp only [exactArith, oblProj, of_apply]
      rfl
    have hn : 0 ≤ colSums (oblProj (of a) (of b - of a)) (oblProj (of a) (of b - of a)) j :=
      Finset.sum_nonneg fun i _ => mul_self_nonneg _
    have hcs : colSumsFl exactArith (oblProj (of a) (of b - of a))
        (oblProj (of a) (of b - of a)) j =
        colSums (oblProj (of a) (of b - of a)) (oblProj (of a) (of b - of a)) j :=
      colSumsFl_exact _ _ j
    have hcn : colNorms (oblProj (of a) (of b - of a)) j =
        √(colSums (oblProj (of a) (of b - of a)) (oblProj (of a) (of b - of a)) j) := by
      simp [colNorms, colSums, sq]
    simp only [oblLogFl, hv, hcs]
    rw [colSumsFl_exact, Arith.acosO, if_pos (hc j), Option.bind_some, Arith.sqrtO, if_pos (by exact hn),
      Option.bind_some, Arith.divO, if_neg]
    · rw [Option.map_some]
      congr 1
      funext i
      simp only [oblLog, of_apply, hcn]
      rfl
    · exact (add_pos_of_nonneg_of_pos (Real.sqrt_nonneg _) heps).ne'

/-- Exact arithmetic on the complex circle: for entries of modulus one the same distance and
logarithm as `ccDist`, `ccLog`. -/
theorem C143_exact_complexCircle (a b : Fin n → ℝ × ℝ) (ha : ∀ i, (a i).1 ^ 2 + (a i).2 ^ 2 = 1)
    (hb : ∀ i, (b i).1 ^ 2 + (b i).2 ^ 2 = 1) :
    ccDistFl exactArith a b =
      some (ccDist (fun i => (⟨(a i).1, (a i).2⟩ : ℂ)) fun i => ⟨(b i).1, (b i).2⟩) ∧
    ∀ i, (ccLogFl exactArith 1e-6 (a i) (b i)).map (fun z => (⟨z.1, z.2⟩ : ℂ)) =
      ccLog (fun i => (⟨(a i).1, (a i).2⟩ : ℂ)) (fun i => ⟨(b i).1, (b i).2⟩) i := by
  have hc : ∀ i, -1 ≤ reConjMulFl exactArith (a i) (b i) ∧
      reConjMulFl exactArith (a i) (b i) ≤ 1 := by
    intro i
    have h1 := ha i
    have h2 := hb i
    have : reConjMulFl exactArith (a i) (b i) = (a i).1 * (b i).1 + (a i).2 * (b i).2 := by
      simp [reConjMulFl, exactArith]
    rw [this]
    constructor
    · nlinarith [sq_nonneg ((a i).1 + (b i).1), sq_nonneg ((a i).2 + (b i).2)]
    · nlinarith [sq_nonneg ((a i).1 - (b i).1), sq_nonneg ((a i).2 - (b i).2)]
  constructor
  · rw [ccDistFl, allSome_eq (g := fun i => Real.arccos
      (star (⟨(a i).1, (a i).2⟩ : ℂ) * ⟨(b i).1, (b i).2⟩).re)]
    · rw [Option.bind_some, normFl_exact]; rfl
    · intro i
      rw [Arith.acosO, if_pos (hc i), reConjMulFl_exact]
      rfl
  · intro i
    have hv : (⟨(ccProjFl exactArith (a i) (exactArith.sub (b i).1 (a i).1,
          exactArith.sub (b i).2 (a i).2)).1,
        (ccProjFl exactArith (a i) (exactArith.sub (b i).1 (a i).1,
          exactArith.sub (b i).2 (a i).2)).2⟩ : ℂ) =
        ccProj (fun i => (⟨(a i).1, (a i).2⟩ : ℂ)) ((fun i => ⟨(b i).1, (b i).2⟩) -
          fun i => ⟨(a i).1, (a i).2⟩) i := by
      apply Complex.ext <;> simp [ccProjFl, ccProj, reConjMulFl, exactArith] <;> ring_nf <;> simp
    have hh : ∀ z : ℝ × ℝ, exactArith.hypot z.1 z.2 = ‖(⟨z.1, z.2⟩ : ℂ)‖ := by
      intro z
      simp [exactArith, Complex.norm_eq_sqrt_sq_add_sq]
    simp only [ccLogFl, ccLog]
    rw [Arith.acosO, if_pos (hc i), Option.bind_some, hh, hv, reConjMulFl_exact, ← hv]
    change Option.map _ (Option.map _ (if Real.arccos _ ≤ _ then _ else _)) = _
    split_ifs with h1 h2
    · simp [exactArith]
    · simp [Arith.divO, h2]
    · rw [Arith.divO, if_neg h2, Option.map_some, Option.map_some]
      congr 1
      apply Complex.ext <;> simp [exactArith]

/-- Exact arithmetic on Grassmann manifolds: the same distance as `grDist`. -/
theorem C143_exact_grassmann (s : Fin n → ℝ) (hs : ∀ i, 0 ≤ s i) :
    grDistFl exactArith s = some (grDist fun _ : Unit => s) := by
  rw [grDistFl, allSome_eq (g := fun i => Real.arccos (if 1 < s i then 1 else s i))]
  · rw [Option.bind_some, normFl_exact]
    simp only [grDist, npNorm, Option.some.injEq]
    rw [Fintype.sum_prod_type]
    simp
  · intro i
    rw [Arith.acosO, if_pos]
    · rfl
    · have := hs i
      split_ifs with h
      · norm_num
      · exact ⟨by linarith, not_lt.1 h⟩

/-- Exact arithmetic in the Poincaré ball: the same distance and logarithm as `pbDist`,
`pbLog1`. -/
theorem C143_exact_poincare (a b : Fin k → Fin n → ℝ) (ha : InBalls a) (hb : InBalls b) :
    pbDistFl exactArith a b = some (pbDist a b) ∧
    ∀ l, a l ≠ b l → pbLog1Fl exactArith (a l) (b l) = pbLog1 (a l) (b l) := by
  constructor
  · rw [pbDistFl, allSome_eq (g := fun l => pbDist1 (a l) (b l))]
    · rw [Option.bind_some, normFl_exact]; rfl
    · intro l
      have h1 : npNorm (a l) * npNorm (a l) < 1 := by
        rw [← sq, npNorm_sq_real]; exact (ha l).dot
      have h2 : npNorm (b l) * npNorm (b l) < 1 := by
        rw [← sq, npNorm_sq_real]; exact (hb l).dot
      have h3 : 0 < (1 - npNorm (a l) * npNorm (a l)) * (1 - npNorm (b l) * npNorm (b l)) :=
        mul_pos (sub_pos.2 h1) (sub_pos.2 h2)
      have h4 : 1 ≤ 1 + 2 * (npNorm (a l - b l) * npNorm (a l - b l)) /
          ((1 - npNorm (a l) * npNorm (a l)) * (1 - npNorm (b l) * npNorm (b l))) :=
        le_add_of_nonneg_right (div_nonneg (mul_nonneg two_pos.le (mul_self_nonneg _)) h3.le)
      simp only [pbDist1Fl, normSqFl, normFl_exact, Option.map_some, Option.bind_some]
      rw [Arith.divO, if_neg (by exact h3.ne'), Option.bind_some, Arith.acoshO,
        if_pos (by exact h4)]
      simp only [exactArith, pbDist1, sq]
      rfl
  · intro l hne
    have hA := ha l
    have hB := hb l
    have hD := mobDen_pos (inBall_neg hA) hB
    have hm : pbMobiusFl exactArith (fun i => -a l i) (b l) = some (pbMobius (-a l) (b l)) := by
      refine allSome_eq fun i => ?_
      simp only [dotFl_exact]
      rw [Arith.divO, if_neg (by exact hD.ne')]
      rfl
    have hf := factor_pos hA
    have hw : npNorm (pbMobius (-a l) (b l)) ≠ 0 := fun h => hne ((mobius_eq_zero hA hB).1 h)
    have hw0 := npNorm_nonneg (pbMobius (-a l) (b l))
    have hw1 : npNorm (pbMobius (-a l) (b l)) < 1 :=
      (inBall_norm _).1 (C87_mobius (inBall_neg hA) hB).2
    have hg : (1 : ℝ) - tensordot (a l) (a l) ≠ 0 := (sub_pos.2 hA.dot).ne'
    rw [pbLog1Fl, hm, Option.bind_some, normFl_exact, Option.bind_some, dotFl_exact, Arith.divO,
      if_neg (by exact hg), Option.bind_some, Arith.atanhO, if_pos ⟨by linarith, hw1⟩,
      Option.bind_some, pbLog1, if_neg hw]
    refine allSome_eq fun i => ?_
    rw [Arith.divO, if_neg hw, Option.bind_some, Arith.divO, if_neg]
    · rfl
    · exact (half_pos hf).ne'

/-- Exact arithmetic on positive arrays: the same functions as in `Positive.lean`. -/
theorem C143_exact_positive (a b : Fin n → ℝ) (ha : ∀ i, 0 < a i) (hb : ∀ i, 0 < b i) :
    posDistFl exactArith a b = some (posDist a b) ∧
    posLogFl exactArith a b = some (posLog a b) ∧
    ∀ v, posRetractFl exactArith a v = some (posRetract a v) := by
  refine ⟨?_, ?_, fun v => ?_⟩
  · rw [posDistFl, allSome_eq (g := fun i => Real.log (a i) - Real.log (b i))]
    · rw [Option.bind_some, Arith.sqrtO, if_pos (dotFl_self_nonneg exactArith_signLaws _),
        dotFl_exact]
      rfl
    · intro i
      simp [Arith.logO, ha i, hb i, exactArith]
  · refine allSome_eq fun i => ?_
    simp [Arith.logO, ha i, hb i, exactArith, posLog]
  · refine allSome_eq fun i => ?_
    simp [Arith.divO, (ha i).ne', exactArith, posRetract, sq]

end

/-! ### Binary64 -/

section
variable {acos acosh atanh log : ℚ → ℚ}

/-- The column `(1, 5)`. -/
def rawColumn : Fin 2 → Fin 1 → ℚ := fun i _ => ![1, 5] i

/-- The column `(1, 5)` normalised in binary64. -/
def unitColumn : Fin 2 → Fin 1 → ℚ := fun i _ => ![1766457106259335 / 2 ^ 53, 8832285531296675 / 2 ^ 53] i

theorem oblNormalize_rawColumn :
    oblNormalizeFl (b64Arith 0 0 0 0) rawColumn 0 = some fun i => unitColumn i 0 := by
  decide +kernel

/-- **C143** is false for the oblique manifold: for the column `(1, 5)`, normalised by the manifold
itself in binary64, `log(X, X)` is NaN, because the computed inner product is above 1, and so is
`dist(X, -X)`, because it is below -1.  On the sphere the same column is no problem. -/
theorem C143_negation_oblique (h : ∀ x, 0 ≤ acos x) :
    let A := b64Arith acos acosh atanh log
    oblNormalizeFl A rawColumn 0 = some (fun i => unitColumn i 0) ∧
    oblLogFl A (1 / 2 ^ 52) unitColumn unitColumn 0 = none ∧
    oblDistFl A unitColumn (fun i j => -unitColumn i j) = none ∧
    (sphereLogFl A (1 / 2 ^ 52) (fun i => unitColumn i 0) fun i => unitColumn i 0).isSome ∧
    (sphereDistFl A (fun i => unitColumn i 0) fun i => -unitColumn i 0).isSome := by
  intro A
  have hA : SignLaws A := b64Arith_signLaws h
  have h1 : 1 < colSumsFl A unitColumn unitColumn 0 := by
    change 1 < colSumsFl (b64Arith 0 0 0 0) unitColumn unitColumn 0
    decide +kernel
  have h2 : colSumsFl A unitColumn (fun i j => -unitColumn i j) 0 < -1 := by
    change colSumsFl (b64Arith 0 0 0 0) unitColumn (fun i j => -unitColumn i j) 0 < -1
    decide +kernel
  refine ⟨?_, ?_, ?_, (C143_sphere hA (by norm_num) _ _).2, (C143_sphere hA one_pos _ _).1⟩
  · have e : oblNormalizeFl A rawColumn 0 = oblNormalizeFl (b64Arith 0 0 0 0) rawColumn 0 := rfl
    rw [e, oblNormalize_rawColumn]
  · rw [← Option.not_isSome_iff_eq_none,
      (C143_oblique_partial hA (by norm_num) unitColumn unitColumn).2 0]
    exact fun hc => absurd hc.2 (not_le.2 h1)
  · rw [← Option.not_isSome_iff_eq_none,
      (C143_oblique_partial hA one_pos unitColumn _).1]
    exact fun hc => absurd (hc 0) (not_le.2 h2)

/-- The number `1 + 5j` normalised in binary64. -/
def unitNumber : ℚ × ℚ := (1766457106259335 / 2 ^ 53, 8832285531296675 / 2 ^ 53)

/-- **C143** is false for the complex circle: for the number `1 + 5j`, normalised by the manifold
itself in binary64, both `dist(z, z)` and `log(z, z)` are NaN. -/
theorem C143_negation_complexCircle (h : ∀ x, 0 ≤ acos x) :
    let A := b64Arith acos acosh atanh log
    ccNormalizeFl A (1, 5) = some unitNumber ∧
    ccDistFl A (fun _ : Fin 1 => unitNumber) (fun _ => unitNumber) = none ∧
    ∀ tiny, ccLogFl A tiny unitNumber unitNumber = none := by
  intro A
  have hA : SignLaws A := b64Arith_signLaws h
  have h1 : 1 < reConjMulFl A unitNumber unitNumber := by
    change 1 < reConjMulFl (b64Arith 0 0 0 0) unitNumber unitNumber
    decide +kernel
  have hp := fun tiny => C143_complexCircle_partial hA (fun _ : Fin 1 => unitNumber)
    (fun _ => unitNumber) tiny
  refine ⟨?_, ?_, fun tiny => ?_⟩
  · change ccNormalizeFl (b64Arith 0 0 0 0) (1, 5) = _
    decide +kernel
  · rw [← Option.not_isSome_iff_eq_none, (hp 0).1]
    exact fun hc => absurd (hc 0).2 (not_le.2 h1)
  · rw [← Option.not_isSome_iff_eq_none]
    exact fun hc => absurd ((hp tiny).2 0 hc).2 (not_le.2 h1)

/-- **C143** is false for `log` in the Poincaré ball: for the points `r` and `-r` of the ball of
dimension 1 with `r = 1 - 2 ** -28` the Möbius sum is rounded to 1, where `arctanh` is infinite. -/
theorem C143_negation_poincare :
    let A := b64Arith acos acosh atanh log
    let r : Fin 1 → ℚ := fun _ => 1 - 1 / 2 ^ 28
    (∀ s ∈ normSqFl A r, s < 1) ∧ pbLog1Fl A (fun i => -r i) r = none := by
  intro A r
  constructor
  · change ∀ s ∈ normSqFl (b64Arith 0 0 0 0) r, s < 1
    have : normSqFl (b64Arith 0 0 0 0) r = some (b64 ((1 - 1 / 2 ^ 28) * (1 - 1 / 2 ^ 28))) := by
      decide +kernel
    rw [this]
    rintro s hs
    cases hs
    decide +kernel
  · have hm : pbMobiusFl A (fun i => - -r i) r = some fun _ => 1 := by
      change pbMobiusFl (b64Arith 0 0 0 0) (fun i => - -r i) r = some fun _ => 1
      decide +kernel
    have hn : normFl A (fun _ : Fin 1 => (1 : ℚ)) = some 1 := by
      change normFl (b64Arith 0 0 0 0) (fun _ : Fin 1 => (1 : ℚ)) = some 1
      decide +kernel
    rw [pbLog1Fl, hm, Option.bind_some, hn, Option.bind_some]
    cases A.divO 2 (A.sub 1 (dotFl A (fun i => -r i) fun i => -r i)) with
    | none => rfl
    | some f => simp [Arith.atanhO]

end

end Verif.Geo
