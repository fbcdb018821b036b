/-
C144: rounding errors do not add up to points off the manifold.
-/
import Verif.Geo.Props.Rounding
import Verif.Opt.Props.OnManifold
import Verif.Opt.Witness
import Verif.Geo.Model.Psd
import Mathlib.Algebra.Order.BigOperators.Group.List
import Mathlib.Analysis.Complex.ExponentialBounds
import Mathlib.Analysis.SpecialFunctions.Trigonometric.DerivHyp

namespace Verif.Geo
open scoped BigOperators

/-- An arithmetic with relative errors: at most `u` for the operations and roots, and at most `g n`
times the sum of the absolute values for sums of `n` numbers. -/
structure RelErr {K : Type*} [Field K] [LinearOrder K] (A : Arith K) (u : K) (g : ℕ → K) :
    Prop where
  u_nonneg : 0 ≤ u
  u_lt : u < 1
  add : ∀ x y, |A.add x y - (x + y)| ≤ u * |x + y|
  mul : ∀ x y, |A.mul x y - x * y| ≤ u * |x * y|
  div : ∀ x y, y ≠ 0 → |A.div x y - x / y| ≤ u * |x / y|
  sqrt : ∀ x, 0 ≤ x → 0 ≤ A.sqrt x ∧ (1 - u) ^ 2 * x ≤ A.sqrt x ^ 2 ∧ A.sqrt x ^ 2 ≤ (1 + u) ^ 2 * x
  hypot : ∀ x y, 0 ≤ A.hypot x y ∧ (1 - u) ^ 2 * (x ^ 2 + y ^ 2) ≤ A.hypot x y ^ 2 ∧
    A.hypot x y ^ 2 ≤ (1 + u) ^ 2 * (x ^ 2 + y ^ 2)
  sum : ∀ l : List K, |A.sum l - l.sum| ≤ g l.length * (l.map (|·|)).sum

theorem mul_le_of_sq {K : Type*} [Field K] [LinearOrder K] [IsStrictOrderedRing K] {t w c u q : K}
    (hc : 0 ≤ c) (hu : 0 ≤ u) (hq : 0 ≤ q) (h1 : t ^ 2 ≤ c ^ 2 * q) (h2 : w ^ 2 ≤ u ^ 2 * q) :
    t * w ≤ c * u * q := by
  refine le_of_abs_le (abs_le_of_sq_le_sq ?_ (by positivity))
  calc (t * w) ^ 2 = t ^ 2 * w ^ 2 := by ring
    _ ≤ c ^ 2 * q * (u ^ 2 * q) := mul_le_mul h1 h2 (sq_nonneg _) (by positivity)
    _ = (c * u * q) ^ 2 := by ring

theorem b64Sqrt_rel {q : ℚ} (h : 0 ≤ q) : 0 ≤ b64Sqrt q ∧
    (1 - 1 / 2 ^ 53) ^ 2 * q ≤ b64Sqrt q ^ 2 ∧ b64Sqrt q ^ 2 ≤ (1 + 1 / 2 ^ 53) ^ 2 * q := by
  refine ⟨b64Sqrt_nonneg q, ?_⟩
  rcases h.eq_or_lt with rfl | h
  · simp [b64Sqrt]
  obtain ⟨h1, h2, h3⟩ := b64Sqrt_error h
  obtain ⟨h4, -⟩ := sqrtPlace_spec h
  have hp : (0 : ℚ) < 2 ^ sqrtPlace q := by positivity
  have four : (4 : ℚ) ^ sqrtPlace q = (2 ^ sqrtPlace q) ^ 2 := by
    rw [show (4 : ℚ) = 2 ^ (2 : ℤ) by norm_num, ← zpow_mul, ← zpow_natCast, ← zpow_mul, mul_comm]
    rfl
  rw [four, le_div_iff₀ (by positivity)] at h4
  set w : ℚ := 2 ^ sqrtPlace q / 2 with hw
  set s := b64Sqrt q
  have hw0 : 0 < w := by positivity
  have hwq : w ^ 2 ≤ (1 / 2 ^ 53) ^ 2 * q := by
    have : (2 ^ sqrtPlace q : ℚ) = 2 * w := by rw [hw]; ring
    rw [this] at h4
    norm_num at h4 ⊢
    linarith
  have hws : w ≤ s := by
    have : (2 ^ sqrtPlace q : ℚ) = 2 * w := by rw [hw]; ring
    rw [this] at h3
    nlinarith
  have hu0 : (0 : ℚ) ≤ 1 / 2 ^ 53 := by positivity
  have hu1 : (1 / 2 ^ 53 : ℚ) ≤ 1 := by norm_num
  generalize (1 / 2 ^ 53 : ℚ) = u at *
  constructor
  · by_contra hc
    have hc := (not_le.1 hc)
    have := mul_le_of_sq (sub_nonneg.2 hu1) hu0 h.le hc.le hwq
    nlinarith
  · have := mul_le_of_sq (t := s - w) zero_le_one hu0 h.le (by linarith) hwq
    nlinarith

theorem b64_add_error (s x : ℚ) : |b64 (s + x) - (s + x)| ≤ 1 / 2 ^ 53 * |s + x| :=
  (b64_error _).trans (le_of_eq (by ring))

theorem foldl_b64_error (l : List ℚ) : ∀ {s e B T : ℚ}, |e| ≤ T → |s - e| ≤ B →
    |l.foldl (fun s x => b64 (s + x)) s - (e + l.sum)| ≤
      (1 + 1 / 2 ^ 53) ^ l.length * (B + T + (l.map (|·|)).sum) - (T + (l.map (|·|)).sum) := by
  have hu0 : (0 : ℚ) ≤ 1 / 2 ^ 53 := by positivity
  have hb := b64_add_error
  generalize (1 / 2 ^ 53 : ℚ) = u at *
  induction l with
  | nil => intro s e B T h1 h2; simpa using h2
  | cons x l ih =>
    intro s e B T h1 h2
    have hx := abs_nonneg x
    have hS : 0 ≤ (l.map (|·|)).sum := List.sum_nonneg (by simp)
    have h3 : |e + x| ≤ T + |x| := (abs_add_le _ _).trans (by linarith)
    have h4 : |b64 (s + x) - (e + x)| ≤ (1 + u) * B + u * (T + |x|) := by
      have a1 : |s + x| ≤ B + (T + |x|) := by
        rw [show s + x = (s - e) + (e + x) by ring]
        exact (abs_add_le _ _).trans (by linarith)
      calc |b64 (s + x) - (e + x)| = |(b64 (s + x) - (s + x)) + (s - e)| := by ring_nf
        _ ≤ u * |s + x| + B := (abs_add_le _ _).trans (add_le_add (hb s x) h2)
        _ ≤ u * (B + (T + |x|)) + B := by gcongr
        _ = _ := by ring
    have := ih h3 h4
    simp only [List.foldl_cons, List.sum_cons, List.map_cons, List.length_cons]
    rw [← add_assoc e x]
    refine this.trans ?_
    have hB : 0 ≤ B := (abs_nonneg _).trans h2
    have hT : 0 ≤ T := (abs_nonneg _).trans h1
    have hpow : 0 ≤ (1 + u) ^ l.length := by positivity
    have : (1 + u) ^ l.length * ((1 + u) * B + u * (T + |x|) + (T + |x|) + (l.map (|·|)).sum) ≤
        (1 + u) ^ (l.length + 1) * (B + T + (|x| + (l.map (|·|)).sum)) := by
      rw [pow_succ, mul_assoc]
      refine mul_le_mul_of_nonneg_left ?_ hpow
      nlinarith
    linarith

theorem b64Sum_error (l : List ℚ) :
    |b64Sum l - l.sum| ≤ ((1 + 1 / 2 ^ 53) ^ l.length - 1) * (l.map (|·|)).sum := by
  cases l with
  | nil => simp [b64Sum]
  | cons x l =>
    have := foldl_b64_error l (s := x) (e := x) (B := 0) (T := |x|) le_rfl (by simp)
    simp only [b64Sum, List.sum_cons, List.map_cons, List.length_cons]
    refine this.trans ?_
    have hS : 0 ≤ |x| + (l.map (|·|)).sum :=
      add_nonneg (abs_nonneg x) (List.sum_nonneg (by simp))
    have h1 : ((1 : ℚ) + 1 / 2 ^ 53) ^ l.length ≤ (1 + 1 / 2 ^ 53) ^ (l.length + 1) :=
      pow_le_pow_right₀ (by norm_num) (by omega)
    nlinarith

/-- Binary64 has relative errors of at most `2 ^ -53`. -/
theorem b64Arith_relErr (acos acosh atanh log : ℚ → ℚ) :
    RelErr (b64Arith acos acosh atanh log) (1 / 2 ^ 53) fun n => (1 + 1 / 2 ^ 53) ^ n - 1 where
  u_nonneg := by positivity
  u_lt := by norm_num
  add := b64_add_error
  mul x y := (b64_error _).trans (le_of_eq (by ring))
  div x y _ := (b64_error _).trans (le_of_eq (by ring))
  sqrt _ h := b64Sqrt_rel h
  hypot x y := b64Sqrt_rel (by positivity)
  sum := b64Sum_error

/-! ### Normalised arrays -/

section
variable {K : Type*} [Field K] [LinearOrder K] [IsStrictOrderedRing K] {A : Arith K} {u : K}
  {g : ℕ → K} {m n : ℕ}

/-- The relative error of a computed squared norm of `n` numbers. -/
def dotErr (u : K) (g : ℕ → K) (n : ℕ) : K := u + g n * (1 + u)

theorem sum_mul_error (h : RelErr A u g) (hg : 0 ≤ g n) (a : Fin n → K) :
    |A.sum (List.ofFn fun i => A.mul (a i) (a i)) - ∑ i, a i ^ 2| ≤
      dotErr u g n * ∑ i, a i ^ 2 := by
  have hm : ∀ i, |A.mul (a i) (a i) - a i ^ 2| ≤ u * a i ^ 2 := by
    intro i
    have := h.mul (a i) (a i)
    rwa [abs_mul_self, ← sq] at this
  have h1 := h.sum (List.ofFn fun i => A.mul (a i) (a i))
  rw [List.length_ofFn, List.map_ofFn, List.sum_ofFn, List.sum_ofFn] at h1
  have h2 : |∑ i, A.mul (a i) (a i) - ∑ i, a i ^ 2| ≤ u * ∑ i, a i ^ 2 := by
    rw [← Finset.sum_sub_distrib, Finset.mul_sum]
    exact (Finset.abs_sum_le_sum_abs _ _).trans (Finset.sum_le_sum fun i _ => hm i)
  have h3 : ∑ i, (abs ∘ fun i => A.mul (a i) (a i)) i ≤ (1 + u) * ∑ i, a i ^ 2 := by
    rw [Finset.mul_sum]
    refine Finset.sum_le_sum fun i _ => ?_
    have h0 := hm i
    have h4 : |A.mul (a i) (a i)| ≤ |A.mul (a i) (a i) - a i ^ 2| + |a i ^ 2| := by
      have := abs_add_le (A.mul (a i) (a i) - a i ^ 2) (a i ^ 2)
      rwa [sub_add_cancel] at this
    rw [abs_of_nonneg (sq_nonneg (a i))] at h4
    simp only [Function.comp]
    linarith
  have h4 : g n * ∑ i, (abs ∘ fun i => A.mul (a i) (a i)) i ≤
      g n * ((1 + u) * ∑ i, a i ^ 2) := mul_le_mul_of_nonneg_left h3 hg
  calc _ = |(A.sum (List.ofFn fun i => A.mul (a i) (a i)) - ∑ i, A.mul (a i) (a i)) +
        (∑ i, A.mul (a i) (a i) - ∑ i, a i ^ 2)| := by ring_nf
    _ ≤ g n * ((1 + u) * ∑ i, a i ^ 2) + u * ∑ i, a i ^ 2 :=
        (abs_add_le _ _).trans (add_le_add (h1.trans h4) h2)
    _ = _ := by rw [dotErr]; ring

/-- Bounds for the squared norm of normalised arrays. -/
def unitLo (u δ : K) : K := (1 - u) ^ 2 / ((1 + u) ^ 2 * (1 + δ))

/-- Bounds for the squared norm of normalised arrays. -/
def unitHi (u δ : K) : K := (1 + u) ^ 2 / ((1 - u) ^ 2 * (1 - δ))

theorem div_sq_bounds (h : RelErr A u g) {x s : K} (hs : 0 < s) :
    (1 - u) ^ 2 * (x ^ 2 / s ^ 2) ≤ A.div x s ^ 2 ∧
      A.div x s ^ 2 ≤ (1 + u) ^ 2 * (x ^ 2 / s ^ 2) := by
  have h1 := h.div x s hs.ne'
  have hu0 := h.u_nonneg
  have hu1 := h.u_lt
  have h2 : |A.div x s| ≤ (1 + u) * |x / s| := by
    have := abs_add_le (A.div x s - x / s) (x / s)
    rw [sub_add_cancel] at this
    linarith
  have h3 : (1 - u) * |x / s| ≤ |A.div x s| := by
    have := abs_sub_abs_le_abs_sub (x / s) (A.div x s)
    rw [abs_sub_comm] at this
    linarith
  rw [← div_pow, ← sq_abs (x / s), ← mul_pow, ← mul_pow, ← sq_abs (A.div x s)]
  exact ⟨pow_le_pow_left₀ (mul_nonneg (by linarith) (abs_nonneg _)) h3 2,
    pow_le_pow_left₀ (abs_nonneg _) h2 2⟩

theorem normalised_bounds (h : RelErr A u g) (hg : 0 ≤ g n) (hδ : dotErr u g n < 1)
    {a y : Fin n → K} {s : K}
    (hd : 0 ≤ A.sum (List.ofFn fun i => A.mul (a i) (a i)))
    (hs : s = A.sqrt (A.sum (List.ofFn fun i => A.mul (a i) (a i)))) (hs0 : s ≠ 0)
    (hy : ∀ i, y i = A.div (a i) s) :
    unitLo u (dotErr u g n) ≤ ∑ i, y i ^ 2 ∧ ∑ i, y i ^ 2 ≤ unitHi u (dotErr u g n) := by
  have hu0 := h.u_nonneg
  have hu1 := h.u_lt
  have hδ0 : 0 ≤ dotErr u g n := by unfold dotErr; positivity
  have hsum := sum_mul_error h hg a
  set δ := dotErr u g n
  set d := A.sum (List.ofFn fun i => A.mul (a i) (a i))
  set N := ∑ i, a i ^ 2
  obtain ⟨q0, q1, q2⟩ := h.sqrt d hd
  rw [← hs] at q0 q1 q2
  have hs1 : 0 < s := lt_of_le_of_ne q0 (Ne.symm hs0)
  have hN0 : 0 ≤ N := Finset.sum_nonneg fun i _ => sq_nonneg _
  obtain ⟨e1, e2⟩ := abs_le.1 hsum
  have hN : 0 < N := by
    rcases hN0.eq_or_lt with h0 | h0
    · rw [← h0] at e2
      have : s ^ 2 ≤ 0 := q2.trans (mul_nonpos_of_nonneg_of_nonpos (sq_nonneg _) (by linarith))
      have := pow_pos hs1 2
      linarith
    · exact h0
  have lo : (1 - u) ^ 2 * (1 - δ) * N ≤ s ^ 2 := by
    refine le_trans ?_ q1
    rw [mul_assoc]
    exact mul_le_mul_of_nonneg_left (by linarith) (sq_nonneg _)
  have hi : s ^ 2 ≤ (1 + u) ^ 2 * (1 + δ) * N := by
    refine q2.trans ?_
    rw [mul_assoc]
    exact mul_le_mul_of_nonneg_left (by linarith) (sq_nonneg _)
  have hs2 : 0 < s ^ 2 := pow_pos hs1 2
  have p1 : 0 < (1 - u) ^ 2 := pow_pos (by linarith) 2
  have p2 : 0 < 1 - δ := by linarith
  have hsum2 : ∑ i, a i ^ 2 / s ^ 2 = N / s ^ 2 := by rw [← Finset.sum_div]
  constructor
  · calc unitLo u δ ≤ (1 - u) ^ 2 * (N / s ^ 2) := by
          rw [unitLo, div_le_iff₀ (by positivity), mul_assoc]
          refine le_mul_of_one_le_right p1.le ?_
          rw [div_mul_eq_mul_div, le_div_iff₀ hs2, one_mul]
          linarith
      _ = ∑ i, (1 - u) ^ 2 * (a i ^ 2 / s ^ 2) := by rw [← hsum2, Finset.mul_sum]
      _ ≤ _ := Finset.sum_le_sum fun i _ => by rw [hy i]; exact (div_sq_bounds h hs1).1
  · calc ∑ i, y i ^ 2 ≤ ∑ i, (1 + u) ^ 2 * (a i ^ 2 / s ^ 2) :=
          Finset.sum_le_sum fun i _ => by rw [hy i]; exact (div_sq_bounds h hs1).2
      _ = (1 + u) ^ 2 * (N / s ^ 2) := by rw [← hsum2, Finset.mul_sum]
      _ ≤ unitHi u δ := by
          rw [unitHi, le_div_iff₀ (by positivity), mul_assoc]
          refine mul_le_of_le_one_right (sq_nonneg _) ?_
          rw [div_mul_eq_mul_div, div_le_iff₀ hs2, one_mul]
          linarith

/-- The squared norm is between two bounds. -/
def NearUnit (lo hi : K) (y : Fin n → K) : Prop := lo ≤ ∑ i, y i ^ 2 ∧ ∑ i, y i ^ 2 ≤ hi

theorem normalize_near (h : RelErr A u g) (hg : 0 ≤ g n) (hδ : dotErr u g n < 1) (hn : 0 < n)
    {a y : Fin n → K}
    (hy : ((A.sqrtO (A.sum (List.ofFn fun i => A.mul (a i) (a i)))).bind fun s =>
      allSome fun i => A.divO (a i) s) = some y) :
    NearUnit (unitLo u (dotErr u g n)) (unitHi u (dotErr u g n)) y := by
  obtain ⟨s, hs, hy⟩ := Option.bind_eq_some_iff.1 hy
  unfold Arith.sqrtO at hs
  split at hs
  · rename_i hd
    cases hs
    have hdiv := fun i => of_allSome hy i
    have hs0 : A.sqrt (A.sum (List.ofFn fun i => A.mul (a i) (a i))) ≠ 0 := by
      intro h0
      have := hdiv ⟨0, hn⟩
      simp [Arith.divO, h0] at this
    refine normalised_bounds h hg hδ hd rfl hs0 fun i => ?_
    have := hdiv i
    rw [Arith.divO, if_neg hs0] at this
    exact (Option.some.inj this).symm
  · cases hs

/-- **C144** (sphere) Whatever the arrays `x` and `v`, `retraction(x, v)` computed with relative
errors is NaN or has a squared norm within fixed bounds: errors in `x` are not passed on.  The same
holds for midpoints and random points. -/
theorem C144_sphere (h : RelErr A u g) (hg : 0 ≤ g n) (hδ : dotErr u g n < 1) (hn : 0 < n) :
    (∀ x v y : Fin n → K, sphereRetractionFl A x v = some y →
      NearUnit (unitLo u (dotErr u g n)) (unitHi u (dotErr u g n)) y) ∧
    (∀ a b y : Fin n → K, spherePairMeanFl A a b = some y →
      NearUnit (unitLo u (dotErr u g n)) (unitHi u (dotErr u g n)) y) ∧
    ∀ draw y : Fin n → K, sphereNormalizeFl A draw = some y →
      NearUnit (unitLo u (dotErr u g n)) (unitHi u (dotErr u g n)) y :=
  ⟨fun _ _ _ hy => normalize_near h hg hδ hn hy, fun _ _ _ hy => normalize_near h hg hδ hn hy,
    fun _ _ hy => normalize_near h hg hδ hn hy⟩

/-- **C144** (oblique manifold) The same for every column. -/
theorem C144_oblique (h : RelErr A u g) (hg : 0 ≤ g m) (hδ : dotErr u g m < 1) (hm : 0 < m) :
    (∀ (x v : Fin m → Fin n → K) (j : Fin n) (y : Fin m → K), oblRetractionFl A x v j = some y →
      NearUnit (unitLo u (dotErr u g m)) (unitHi u (dotErr u g m)) y) ∧
    ∀ (draw : Fin m → Fin n → K) (j : Fin n) (y : Fin m → K), oblNormalizeFl A draw j = some y →
      NearUnit (unitLo u (dotErr u g m)) (unitHi u (dotErr u g m)) y :=
  ⟨fun _ _ _ _ hy => normalize_near h hg hδ hm hy, fun _ _ _ hy => normalize_near h hg hδ hm hy⟩

/-- **C144** (elliptope) The same for every row. -/
theorem C144_elliptope (h : RelErr A u g) (hg : 0 ≤ g n) (hδ : dotErr u g n < 1) (hn : 0 < n) :
    (∀ (x v : Fin m → Fin n → K) (i : Fin m) (y : Fin n → K), ellRetractionFl A x v i = some y →
      NearUnit (unitLo u (dotErr u g n)) (unitHi u (dotErr u g n)) y) ∧
    ∀ (draw : Fin m → Fin n → K) (i : Fin m) (y : Fin n → K), ellNormalizeFl A draw i = some y →
      NearUnit (unitLo u (dotErr u g n)) (unitHi u (dotErr u g n)) y :=
  ⟨fun _ _ _ _ hy => normalize_near h hg hδ hn hy, fun _ _ _ hy => normalize_near h hg hδ hn hy⟩

theorem mul_sq_bounds (h : RelErr A u g) (x s : K) :
    (1 - u) ^ 2 * (x ^ 2 * s ^ 2) ≤ A.mul x s ^ 2 ∧
      A.mul x s ^ 2 ≤ (1 + u) ^ 2 * (x ^ 2 * s ^ 2) := by
  have h1 := h.mul x s
  have hu0 := h.u_nonneg
  have hu1 := h.u_lt
  have h2 : |A.mul x s| ≤ (1 + u) * |x * s| := by
    have := abs_add_le (A.mul x s - x * s) (x * s)
    rw [sub_add_cancel] at this
    linarith
  have h3 : (1 - u) * |x * s| ≤ |A.mul x s| := by
    have := abs_sub_abs_le_abs_sub (x * s) (A.mul x s)
    rw [abs_sub_comm] at this
    linarith
  rw [← mul_pow x, ← sq_abs (x * s), ← mul_pow, ← mul_pow, ← sq_abs (A.mul x s)]
  exact ⟨pow_le_pow_left₀ (mul_nonneg (by linarith) (abs_nonneg _)) h3 2,
    pow_le_pow_left₀ (abs_nonneg _) h2 2⟩

/-- **C144** (complex circle) Whatever the numbers `z` and `v`, the squared modulus of the entry of
`retraction(z, v)` is within fixed bounds; the same for random points. -/
theorem C144_complexCircle (h : RelErr A u g) :
    (∀ z v y : K × K, ccRetractionFl A z v = some y →
      (1 - u) ^ 4 / (1 + u) ^ 2 ≤ y.1 ^ 2 + y.2 ^ 2 ∧
        y.1 ^ 2 + y.2 ^ 2 ≤ (1 + u) ^ 4 / (1 - u) ^ 2) ∧
    ∀ draw y : K × K, ccNormalizeFl A draw = some y →
      (1 - u) ^ 4 / (1 + u) ^ 2 ≤ y.1 ^ 2 + y.2 ^ 2 ∧
        y.1 ^ 2 + y.2 ^ 2 ≤ (1 + u) ^ 4 / (1 - u) ^ 2 := by
  have hu0 := h.u_nonneg
  have hu1 := h.u_lt
  have key : ∀ draw y : K × K, ccNormalizeFl A draw = some y →
      (1 - u) ^ 4 / (1 + u) ^ 2 ≤ y.1 ^ 2 + y.2 ^ 2 ∧
        y.1 ^ 2 + y.2 ^ 2 ≤ (1 + u) ^ 4 / (1 - u) ^ 2 := by
    rintro ⟨a, b⟩ y hy
    unfold ccNormalizeFl at hy
    obtain ⟨s, hs, rfl⟩ := Option.map_eq_some_iff.1 hy
    unfold Arith.divO at hs
    split at hs
    · cases hs
    rename_i hr
    cases hs
    obtain ⟨r0, r1, r2⟩ := h.hypot a b
    have hr0 := lt_of_le_of_ne r0 (Ne.symm hr)
    dsimp only at *
    obtain ⟨d1, d2⟩ := div_sq_bounds (x := 1) h hr0
    obtain ⟨a1, a2⟩ := mul_sq_bounds h a (A.div 1 (A.hypot a b))
    obtain ⟨b1, b2⟩ := mul_sq_bounds h b (A.div 1 (A.hypot a b))
    have hp := pow_pos hr0 2
    set w := A.div 1 (A.hypot a b) ^ 2
    set r := A.hypot a b ^ 2
    set N := a ^ 2 + b ^ 2 with hN
    have p0 : 0 < 1 - u := by linarith
    have p1 : 0 < 1 + u := by linarith
    have hN0 : 0 ≤ N := by positivity
    have lo : 1 / (1 + u) ^ 2 ≤ N * (1 / r) := by
      rw [mul_one_div, div_le_div_iff₀ (pow_pos p1 2) hp]
      linarith
    have hi : N * (1 / r) ≤ 1 / (1 - u) ^ 2 := by
      rw [mul_one_div, div_le_div_iff₀ hp (pow_pos p0 2)]
      linarith
    rw [one_pow] at d1 d2
    constructor
    · calc (1 - u) ^ 4 / (1 + u) ^ 2 = (1 - u) ^ 4 * (1 / (1 + u) ^ 2) := by ring
        _ ≤ (1 - u) ^ 4 * (N * (1 / r)) := mul_le_mul_of_nonneg_left lo (by positivity)
        _ = (1 - u) ^ 2 * (N * ((1 - u) ^ 2 * (1 / r))) := by ring
        _ ≤ (1 - u) ^ 2 * (N * w) :=
            mul_le_mul_of_nonneg_left (mul_le_mul_of_nonneg_left d1 hN0) (sq_nonneg _)
        _ = (1 - u) ^ 2 * (a ^ 2 * w) + (1 - u) ^ 2 * (b ^ 2 * w) := by rw [hN]; ring
        _ ≤ _ := add_le_add a1 b1
    · calc _ ≤ (1 + u) ^ 2 * (a ^ 2 * w) + (1 + u) ^ 2 * (b ^ 2 * w) := add_le_add a2 b2
        _ = (1 + u) ^ 2 * (N * w) := by rw [hN]; ring
        _ ≤ (1 + u) ^ 2 * (N * ((1 + u) ^ 2 * (1 / r))) :=
            mul_le_mul_of_nonneg_left (mul_le_mul_of_nonneg_left d2 hN0) (sq_nonneg _)
        _ = (1 + u) ^ 4 * (N * (1 / r)) := by ring
        _ ≤ (1 + u) ^ 4 * (1 / (1 - u) ^ 2) := mul_le_mul_of_nonneg_left hi (by positivity)
        _ = _ := by ring
  exact ⟨fun _ _ => key _, key⟩

theorem pos_of_rel {x y : K} (hu1 : u < 1) (hx : 0 < x) (h : |y - x| ≤ u * |x|) : 0 < y := by
  rw [abs_of_pos hx] at h
  have := (abs_le.1 h).1
  nlinarith

theorem retract_pos {p v s q : K} (hu : u ≤ 1 / 16) (hp : 0 < p)
    (hs : |s - (p + v)| ≤ u * |p + v|) (hq : (1 - u) * ((1 - u) * ((1 - u) * v ^ 2 / p) / 2) ≤ q) :
    0 < s + q := by
  have c : 13 / 16 ≤ (1 - u) * ((1 - u) * (1 - u)) := by nlinarith [sq_nonneg u]
  have hq' : 13 / 32 * (v ^ 2 / p) ≤ q := by
    refine le_trans ?_ hq
    have : 0 ≤ v ^ 2 / p := by positivity
    calc 13 / 32 * (v ^ 2 / p) = 13 / 16 * (v ^ 2 / p / 2) := by ring
      _ ≤ (1 - u) * ((1 - u) * (1 - u)) * (v ^ 2 / p / 2) :=
          mul_le_mul_of_nonneg_right c (by positivity)
      _ = _ := by ring
  obtain ⟨s1, -⟩ := abs_le.1 hs
  have hv0 : 0 ≤ v ^ 2 / p := by positivity
  rcases lt_trichotomy 0 (p + v) with h0 | h0 | h0
  · have := pos_of_rel (by linarith) h0 hs
    linarith
  · rw [← h0] at s1
    have hv : v = -p := by linarith
    have : v ^ 2 / p = p := by rw [hv]; field_simp
    rw [this] at hq'
    simp at s1
    linarith
  · rw [abs_of_neg h0] at s1
    have s2 : 17 / 16 * (p + v) ≤ s := by nlinarith
    have : 0 < 17 / 16 * (p + v) + 13 / 32 * (v ^ 2 / p) := by
      have e : 17 / 16 * (p + v) + 13 / 32 * (v ^ 2 / p) =
          (34 * p ^ 2 + 34 * (p * v) + 13 * v ^ 2) / (32 * p) := by field_simp; ring
      rw [e]
      refine div_pos ?_ (by positivity)
      nlinarith [sq_nonneg (2 * p + v), sq_nonneg v, pow_pos hp 2, sq_nonneg (5 * p + 4 * v)]
    linarith

/-- **C144** (positive matrices) If the relative errors are at most `1/16`, `retraction(x, v)` is
positive for every positive `x`, whatever `v`. -/
theorem C144_positive (h : RelErr A u g) (hu : u ≤ 1 / 16) (p v : Fin n → K) (hp : ∀ i, 0 < p i) :
    ∃ y, posRetractFl A p v = some y ∧ ∀ i, 0 < y i := by
  have hu0 := h.u_nonneg
  have hu1 := h.u_lt
  have w0 : 0 ≤ 1 - u := by linarith
  refine ⟨fun i => A.add (A.add (p i) (v i))
    (A.div (A.div (A.mul (v i) (v i)) (p i)) 2), allSome_eq fun i => ?_, fun i => ?_⟩
  · simp [Arith.divO, (hp i).ne']
  · have hp := hp i
    set p := p i
    set v := v i
    refine pos_of_rel hu1 ?_ (h.add _ _)
    obtain ⟨m1, -⟩ := abs_le.1 (h.mul v v)
    rw [abs_of_nonneg (mul_self_nonneg v)] at m1
    have m2 : (1 - u) * v ^ 2 ≤ A.mul v v := by linarith
    have m0 : 0 ≤ A.mul v v := le_trans (mul_nonneg (by linarith) (sq_nonneg v)) m2
    obtain ⟨d1, -⟩ := abs_le.1 (h.div (A.mul v v) p hp.ne')
    rw [abs_of_nonneg (div_nonneg m0 hp.le)] at d1
    have d2 : (1 - u) * (A.mul v v / p) ≤ A.div (A.mul v v) p := by linarith
    have d0 : 0 ≤ A.div (A.mul v v) p :=
      le_trans (mul_nonneg (by linarith) (div_nonneg m0 hp.le)) d2
    obtain ⟨e1, -⟩ := abs_le.1 (h.div (A.div (A.mul v v) p) 2 two_ne_zero)
    rw [abs_of_nonneg (div_nonneg d0 zero_le_two)] at e1
    have e2 : (1 - u) * (A.div (A.mul v v) p / 2) ≤ A.div (A.div (A.mul v v) p) 2 := by linarith
    refine retract_pos hu hp (h.add p v) (le_trans ?_ e2)
    have d3 : (1 - u) * ((1 - u) * v ^ 2 / p) ≤ A.div (A.mul v v) p :=
      le_trans (mul_le_mul_of_nonneg_left (div_le_div_of_nonneg_right m2 hp.le) w0) d2
    exact mul_le_mul_of_nonneg_left (div_le_div_of_nonneg_right d3 zero_le_two) w0

omit [Field K] [LinearOrder K] [IsStrictOrderedRing K] in
/-- **C144** (symmetric and skew-symmetric matrices) If addition is commutative, `multisym` returns
matrices that are symmetric entry by entry, not only up to rounding. -/
theorem C144_symmetric (hadd : ∀ x y, A.add x y = A.add y x) (half : K) (a : Fin n → Fin n → K)
    (i j : Fin n) : multisymFl A half a i j = multisymFl A half a j i := by
  unfold multisymFl
  rw [hadd]

omit [LinearOrder K] [IsStrictOrderedRing K] in
/-- **C144** (symmetric and skew-symmetric matrices) `multiskew` returns matrices that are
skew-symmetric entry by entry. -/
theorem C144_skew (hsub : ∀ x y, A.sub x y = -A.sub y x) (hmul : ∀ x y, A.mul x (-y) = -A.mul x y)
    (half : K) (a : Fin n → Fin n → K) (i j : Fin n) :
    multiskewFl A half a i j = -multiskewFl A half a j i := by
  unfold multiskewFl
  rw [hsub, hmul]

end

/-! ## Exact arithmetic -/

section
variable {n m : ℕ}

/-- In exact arithmetic the retraction and the midpoint are those of `Sphere.lean`. -/
theorem C144_exact_sphere (x v : Fin n → ℝ) (h : x + v ≠ 0) :
    sphereRetractionFl exactArith x v = some (sphereRetraction x v) ∧
    spherePairMeanFl exactArith x v = some (spherePairMean x v) :=
  ⟨(C143_exact_sphere one_pos (x + v) 0).2.2 h, (C143_exact_sphere one_pos (x + v) 0).2.2 h⟩

/-- The same for the oblique manifold. -/
theorem C144_exact_oblique (x v : Fin m → Fin n → ℝ) (j : Fin n) (h : ∃ i, x i j + v i j ≠ 0) :
    oblRetractionFl exactArith x v j =
      some fun i => oblRetraction (Matrix.of x) (Matrix.of v) i j := by
  have h0 : (fun i => x i j + v i j) ≠ 0 := by
    obtain ⟨i, hi⟩ := h
    exact fun h0 => hi (congrFun h0 i)
  have := (C143_exact_sphere one_pos (fun i => x i j + v i j) 0).2.2 h0
  have e : oblRetractionFl exactArith x v j = sphereNormalizeFl exactArith fun i => x i j + v i j := rfl
  rw [e, this]
  congr 1
  funext i
  simp [oblRetraction, oblNormalize, sphereNormalize, div_eq_inv_mul]

/-- The same for the elliptope. -/
theorem C144_exact_elliptope (x v : Fin m → Fin n → ℝ) (i : Fin m) (h : ∃ j, x i j + v i j ≠ 0) :
    ellRetractionFl exactArith x v i =
      some fun j => ellRetraction (Matrix.of x) (Matrix.of v) i j := by
  have h0 : (fun j => x i j + v i j) ≠ 0 := by
    obtain ⟨j, hj⟩ := h
    exact fun h0 => hj (congrFun h0 j)
  have := (C143_exact_sphere one_pos (fun j => x i j + v i j) 0).2.2 h0
  have e : ellRetractionFl exactArith x v i = sphereNormalizeFl exactArith fun j => x i j + v i j := rfl
  rw [e, this]
  congr 1
  funext j
  simp [ellRetraction, ellNormalize, sphereNormalize, div_eq_inv_mul]

/-- The same for the complex circle. -/
theorem C144_exact_complexCircle (z v : Fin n → ℝ × ℝ) (i : Fin n)
    (h : ((z i).1 + (v i).1) ^ 2 + ((z i).2 + (v i).2) ^ 2 ≠ 0) :
    (ccRetractionFl exactArith (z i) (v i)).map (fun y => (⟨y.1, y.2⟩ : ℂ)) =
      some (ccRetraction (fun i => (⟨(z i).1, (z i).2⟩ : ℂ)) (fun i => ⟨(v i).1, (v i).2⟩) i) := by
  have h0 : Real.sqrt (((z i).1 + (v i).1) ^ 2 + ((z i).2 + (v i).2) ^ 2) ≠ 0 :=
    (Real.sqrt_pos.2 (lt_of_le_of_ne (by positivity) (Ne.symm h))).ne'
  have hn : ‖(⟨(z i).1 + (v i).1, (z i).2 + (v i).2⟩ : ℂ)‖ =
      Real.sqrt (((z i).1 + (v i).1) ^ 2 + ((z i).2 + (v i).2) ^ 2) := by
    rw [Complex.norm_def, Complex.normSq_mk, sq, sq]
  have hs : (⟨(z i).1, (z i).2⟩ + ⟨(v i).1, (v i).2⟩ : ℂ) =
      ⟨(z i).1 + (v i).1, (z i).2 + (v i).2⟩ := by
    apply Complex.ext <;> simp
  unfold ccRetractionFl ccNormalizeFl Arith.divO
  rw [if_neg (by exact h0)]
  simp only [Option.map_some, Option.some.injEq]
  rw [ccRetraction, ccNormalize, Pi.add_apply, hs, hn]
  apply Complex.ext
  · rw [Complex.div_ofReal_re]
    simp [exactArith, div_eq_mul_inv]
  · rw [Complex.div_ofReal_im]
    simp [exactArith, div_eq_mul_inv]

/-- The same for the Poincaré ball with the exact `tanh`. -/
theorem C144_exact_poincare (x v : Fin n → ℝ) (hx : InBall x) :
    pbExp1Fl exactArith Real.tanh x v = some (pbExp1 x v) := by
  have hg : (1 : ℝ) - tensordot x x ≠ 0 := (sub_pos.2 hx.dot).ne'
  have hv := npNorm_nonneg v
  have hd : npNorm v + (if npNorm v = 0 then (1 : ℝ) else 0) ≠ 0 := by
    split_ifs with h
    · rw [h]; norm_num
    · simpa using h
  have key : ∀ y : Fin n → ℝ, InBall y → pbMobiusFl exactArith x y = some (pbMobius x y) := by
    intro y hy
    have hD := mobDen_pos hx hy
    refine allSome_eq fun i => ?_
    simp only [dotFl_exact]
    rw [Arith.divO, if_neg (by exact hD.ne')]
    rfl
  rw [pbExp1Fl, normFl_exact, Option.bind_some, dotFl_exact, Arith.divO, if_neg (by exact hg),
    Option.bind_some, Arith.divO, if_neg (by exact hd), Option.bind_some]
  exact key _ (expArg_inBall x v hx)

/-- The same for symmetric and skew-symmetric parts. -/
theorem C144_exact_multi (a : Fin n → Fin n → ℝ) (i j : Fin n) :
    multisymFl exactArith (1 / 2) a i j = multisym (fun _ : Unit => Matrix.of a) () i j ∧
    multiskewFl exactArith (1 / 2) a i j = multiskew (fun _ : Unit => Matrix.of a) () i j := by
  constructor <;> simp [multisymFl, multiskewFl, exactArith, multisym, multiskew, multitransp]

end

section
variable {K : Type*} [Field K] [LinearOrder K] [IsStrictOrderedRing K] {A : Arith K} {u : K}
  {g : ℕ → K} {n m : ℕ}

/-! ## Runs -/

section
open Verif.Opt
variable {F P E : Type*} [PyNum F]

/-- Started from a good point, every run of an optimizer that finishes evaluates the cost at good
points only, logs good points and returns a good point; whatever the costs, gradients, Hessians,
inner products and clocks, and however many iterations it takes. -/
structure RunsKeep (pb : Prob F P E) (Good : P → Prop) : Prop where
  sd_backTracking : ∀ cfg c clk x mem r m, Good x →
    SDRuns cfg (backTracking P E c) pb clk x mem (.ok (r, m)) → ResultOn Good r
  sd_adaptive : ∀ cfg c clk x mem r m, Good x →
    SDRuns cfg (adaptive P E c) pb clk x mem (.ok (r, m)) → ResultOn Good r
  cg_backTracking : ∀ cfg rule orth c clk x mem r m searches, Good x →
    CGRuns cfg rule orth (backTracking P E c) pb clk x mem (.ok (r, m, searches)) → ResultOn Good r
  cg_adaptive : ∀ cfg rule orth c clk x mem r m searches, Good x →
    CGRuns cfg rule orth (adaptive P E c) pb clk x mem (.ok (r, m, searches)) → ResultOn Good r
  trustRegions : ∀ cfg c clk eta0 mininner maxinner typicalDist DeltaBar Delta0 x r history, Good x →
    TRRuns cfg c pb clk eta0 mininner maxinner typicalDist DeltaBar Delta0 x (.ok (r, history)) →
    ResultOn Good r
  particleSwarm : ∀ o rnd clk init r final positions, init.AllOn Good →
    PSORuns o rnd pb clk init (.ok (r, final, positions)) → ResultOn Good r ∧ ∀ p ∈ final, Good p

theorem runsKeep_of_retraction {pb : Prob F P E} {Good : P → Prop}
    (h : ∀ x v, Good x → Good (pb.M.retraction x v)) : RunsKeep pb Good := by
  have hM : ClosedMfd pb.M Good fun _ _ => True :=
    ⟨fun x v hx _ => h x v hx, fun _ _ _ _ _ _ => trivial, fun _ _ => trivial,
      fun _ _ _ _ => trivial, fun _ _ _ _ _ _ => trivial, fun _ _ _ _ => trivial,
      fun _ _ _ _ _ => trivial⟩
  have hP : ClosedProb pb Good fun _ _ => True := ⟨hM, fun _ _ => trivial, fun _ _ _ _ => trivial⟩
  refine ⟨?_, ?_, ?_, ?_, ?_, ?_⟩
  · intro cfg c clk x mem r m hx hr
    exact C109_steepestDescent hM (fun _ _ => trivial) (C109_backTracking hM c) hx hr
  · intro cfg c clk x mem r m hx hr
    exact C109_steepestDescent hM (fun _ _ => trivial) (C109_adaptive hM c) hx hr
  · intro cfg rule orth c clk x mem r m searches hx hr
    exact (C109_conjugateGradient hP (C109_backTracking hM c) hx hr).1
  · intro cfg rule orth c clk x mem r m searches hx hr
    exact (C109_conjugateGradient hP (C109_adaptive hM c) hx hr).1
  · intro cfg c clk eta0 mininner maxinner typicalDist DeltaBar Delta0 x r history hx hr
    exact (C109_trustRegions hP (fun _ _ _ _ => trivial) (fun _ _ _ _ _ _ _ _ => trivial) hx hr).1
  · intro o rnd clk init r final positions hi hr
    obtain ⟨h1, h2, -⟩ := C109_particleSwarm hM (fun _ _ _ _ => trivial) (fun _ _ _ => trivial) hi hr
    exact ⟨h1, h2⟩

/-- **C144** (runs on the sphere) If a problem computes `retraction` with relative errors, and
everything else in any way, then along all runs the points are NaN or have squared norms within the
bounds of a single retraction: the errors do not add up over the iterations. -/
theorem C144_runs_sphere {pb : Prob F (Option (Fin n → K)) (Option (Fin n → K))}
    (h : RelErr A u g) (hg : 0 ≤ g n) (hδ : dotErr u g n < 1) (hn : 0 < n)
    (hpb : ∀ x v, pb.M.retraction x v = x.bind fun x => v.bind fun v => sphereRetractionFl A x v) :
    RunsKeep pb fun x => ∀ y ∈ x,
      NearUnit (unitLo u (dotErr u g n)) (unitHi u (dotErr u g n)) y := by
  refine runsKeep_of_retraction fun x v _ y hy => ?_
  rw [hpb] at hy
  obtain ⟨x', -, hy⟩ := Option.bind_eq_some_iff.1 hy
  obtain ⟨v', -, hy⟩ := Option.bind_eq_some_iff.1 hy
  exact (C144_sphere h hg hδ hn).1 x' v' y hy

/-- **C144** (Nelder-Mead on the sphere) The same for Nelder-Mead with its centroids. -/
theorem C144_runs_nelderMead {pb : Prob F (Option (Fin n → K)) (Option (Fin n → K))}
    (h : RelErr A u g) (hg : 0 ≤ g n) (hδ : dotErr u g n < 1) (hn : 0 < n)
    (hpb : ∀ x v, pb.M.retraction x v = x.bind fun x => v.bind fun v => sphereRetractionFl A x v)
    (hpm : ∀ a b, pb.M.pairMean a b = a.bind fun a => b.bind fun b => spherePairMeanFl A a b)
    {o : NMObj F} {sort : List (F × Option (Fin n → K)) → List (F × Option (Fin n → K))}
    {centroid : ℤ → List (Option (Fin n → K)) → Except PyErr (Option (Fin n → K))}
    {dist : Option (Fin n → K) → Option (Fin n → K) → F} {clk : Clock F}
    {init : InitArg (Option (Fin n → K))} {r : Result F (Option (Fin n → K))}
    (hsort : ∀ l, (sort l).Perm l)
    (hcent : ∀ it pts, ∃ clk draw,
      CentroidRuns pb.M dist clk (sphereNormalizeFl A draw) pts (centroid it pts))
    (hinit : init.AllOn fun x => ∀ y ∈ x,
      NearUnit (unitLo u (dotErr u g n)) (unitHi u (dotErr u g n)) y)
    (hr : NMRuns o sort centroid pb clk init (.ok r)) :
    ResultOn (fun x => ∀ y ∈ x,
      NearUnit (unitLo u (dotErr u g n)) (unitHi u (dotErr u g n)) y) r := by
  obtain ⟨h1, h2, h3⟩ := C144_sphere (n := n) h hg hδ hn
  have hM : ClosedMfd pb.M (fun x => ∀ y ∈ x,
      NearUnit (unitLo u (dotErr u g n)) (unitHi u (dotErr u g n)) y) fun _ _ => True := by
    refine ⟨fun x v _ _ y hy => ?_, fun _ _ _ _ _ _ => trivial, fun _ _ => trivial,
      fun _ _ _ _ => trivial, fun _ _ _ _ _ _ => trivial, fun _ _ _ _ => trivial,
      fun _ _ _ _ _ => trivial⟩
    rw [hpb] at hy
    obtain ⟨x', -, hy⟩ := Option.bind_eq_some_iff.1 hy
    obtain ⟨v', -, hy⟩ := Option.bind_eq_some_iff.1 hy
    exact h1 x' v' y hy
  refine C109_nelderMead_centroid (dist := dist) hM (fun _ _ _ _ => trivial) ?_ hsort ?_ hinit hr
  · intro a b _ _ y hy
    rw [hpm] at hy
    obtain ⟨a', -, hy⟩ := Option.bind_eq_some_iff.1 hy
    obtain ⟨b', -, hy⟩ := Option.bind_eq_some_iff.1 hy
    exact h2 a' b' y hy
  · intro it pts
    obtain ⟨clk', draw, hc⟩ := hcent it pts
    exact ⟨clk', _, fun y hy => h3 draw y hy, hc⟩

/-- **C144** (runs on the oblique manifold) -/
theorem C144_runs_oblique {pb : Prob F (Option (Fin m → Fin n → K)) (Option (Fin m → Fin n → K))}
    (h : RelErr A u g) (hg : 0 ≤ g m) (hδ : dotErr u g m < 1) (hm : 0 < m)
    (hpb : ∀ x v, pb.M.retraction x v = x.bind fun x => v.bind fun v =>
      (allSome fun j => oblRetractionFl A x v j).map fun c i j => c j i) :
    RunsKeep pb fun x => ∀ y ∈ x, ∀ j,
      NearUnit (unitLo u (dotErr u g m)) (unitHi u (dotErr u g m)) fun i => y i j := by
  refine runsKeep_of_retraction fun x v _ y hy j => ?_
  rw [hpb] at hy
  obtain ⟨x', -, hy⟩ := Option.bind_eq_some_iff.1 hy
  obtain ⟨v', -, hy⟩ := Option.bind_eq_some_iff.1 hy
  obtain ⟨c, hc, rfl⟩ := Option.map_eq_some_iff.1 hy
  exact (C144_oblique h hg hδ hm).1 x' v' j _ (of_allSome hc j)

/-- **C144** (runs on the elliptope) -/
theorem C144_runs_elliptope {pb : Prob F (Option (Fin m → Fin n → K)) (Option (Fin m → Fin n → K))}
    (h : RelErr A u g) (hg : 0 ≤ g n) (hδ : dotErr u g n < 1) (hn : 0 < n)
    (hpb : ∀ x v, pb.M.retraction x v = x.bind fun x => v.bind fun v =>
      allSome fun i => ellRetractionFl A x v i) :
    RunsKeep pb fun x => ∀ y ∈ x, ∀ i,
      NearUnit (unitLo u (dotErr u g n)) (unitHi u (dotErr u g n)) (y i) := by
  refine runsKeep_of_retraction fun x v _ y hy i => ?_
  rw [hpb] at hy
  obtain ⟨x', -, hy⟩ := Option.bind_eq_some_iff.1 hy
  obtain ⟨v', -, hy⟩ := Option.bind_eq_some_iff.1 hy
  exact (C144_elliptope h hg hδ hn).1 x' v' i _ (of_allSome hy i)

/-- **C144** (runs on the complex circle) -/
theorem C144_runs_complexCircle {pb : Prob F (Option (Fin n → K × K)) (Option (Fin n → K × K))}
    (h : RelErr A u g)
    (hpb : ∀ x v, pb.M.retraction x v = x.bind fun x => v.bind fun v =>
      allSome fun i => ccRetractionFl A (x i) (v i)) :
    RunsKeep pb fun x => ∀ y ∈ x, ∀ i, (1 - u) ^ 4 / (1 + u) ^ 2 ≤ (y i).1 ^ 2 + (y i).2 ^ 2 ∧
      (y i).1 ^ 2 + (y i).2 ^ 2 ≤ (1 + u) ^ 4 / (1 - u) ^ 2 := by
  refine runsKeep_of_retraction fun x v _ y hy i => ?_
  rw [hpb] at hy
  obtain ⟨x', -, hy⟩ := Option.bind_eq_some_iff.1 hy
  obtain ⟨v', -, hy⟩ := Option.bind_eq_some_iff.1 hy
  exact (C144_complexCircle h).1 _ _ _ (of_allSome hy i)

/-- **C144** (runs on positive matrices) -/
theorem C144_runs_positive {pb : Prob F (Option (Fin n → K)) (Option (Fin n → K))}
    (h : RelErr A u g) (hu : u ≤ 1 / 16)
    (hpb : ∀ x v, pb.M.retraction x v = x.bind fun x => v.bind fun v => posRetractFl A x v) :
    RunsKeep pb fun x => ∀ y ∈ x, ∀ i, 0 < y i := by
  refine runsKeep_of_retraction fun x v hx y hy i => ?_
  rw [hpb] at hy
  obtain ⟨x', hx', hy⟩ := Option.bind_eq_some_iff.1 hy
  obtain ⟨v', -, hy⟩ := Option.bind_eq_some_iff.1 hy
  obtain ⟨y', h1, h2⟩ := C144_positive h hu x' v' (hx x' hx')
  rw [h1] at hy
  cases hy
  exact h2 i

end

end

/-! ## Binary64 -/

section
variable {n : ℕ} {acos acosh atanh log : ℚ → ℚ}

theorem pow_one_add_le {u : ℚ} (hu : 0 ≤ u) : ∀ n : ℕ, 2 * n * u ≤ 1 → (1 + u) ^ n ≤ 1 + 2 * n * u
  | 0, _ => by simp
  | n + 1, h => by
    push_cast at h ⊢
    have := pow_one_add_le hu n (by linarith)
    rw [pow_succ]
    calc (1 + u) ^ n * (1 + u) ≤ (1 + 2 * n * u) * (1 + u) :=
          mul_le_mul_of_nonneg_right this (by linarith)
      _ ≤ _ := by nlinarith

theorem unit_bounds {u δ : ℚ} (hu : 0 ≤ u) (hδ : 0 ≤ δ) (h : 4 * u + δ ≤ 1 / 2) :
    1 - (4 * u + δ) ≤ unitLo u δ ∧ unitHi u δ ≤ 1 + 2 * (4 * u + δ) := by
  have p : 0 < (1 + u) ^ 2 := by positivity
  have q : 0 < (1 - u) ^ 2 := pow_pos (by linarith) 2
  have r : 0 < 1 - δ := by linarith
  have a : (1 - 4 * u) * (1 + u) ^ 2 ≤ (1 - u) ^ 2 := by nlinarith [mul_nonneg hu hu, pow_nonneg hu 3]
  have uδ := mul_nonneg hu hδ
  constructor
  · rw [unitLo, le_div_iff₀ (by positivity)]
    have : (1 - (4 * u + δ)) * (1 + δ) ≤ 1 - 4 * u := by nlinarith [mul_nonneg hδ hδ]
    nlinarith
  · rw [unitHi, div_le_iff₀ (by positivity)]
    have b : 1 ≤ (1 + 2 * (4 * u + δ)) * ((1 - 4 * u) * (1 - δ)) := by
      have c : 1 - (4 * u + δ) ≤ (1 - 4 * u) * (1 - δ) := by nlinarith
      nlinarith
    have d : (1 - 4 * u) * (1 - δ) * (1 + u) ^ 2 ≤ (1 - u) ^ 2 * (1 - δ) := by nlinarith
    nlinarith

/-- The bounds in binary64. -/
theorem b64_near (hn : n ≤ 2 ^ 50) : let g := fun k => (1 + 1 / 2 ^ 53 : ℚ) ^ k - 1
    0 ≤ g n ∧ dotErr (1 / 2 ^ 53) g n < 1 ∧
    1 - ((n : ℚ) + 3) / 2 ^ 51 ≤ unitLo (1 / 2 ^ 53) (dotErr (1 / 2 ^ 53) g n) ∧
      unitHi (1 / 2 ^ 53) (dotErr (1 / 2 ^ 53) g n) ≤ 1 + ((n : ℚ) + 3) / 2 ^ 51 := by
  intro g
  have hn' : (n : ℚ) ≤ 2 ^ 50 := by exact_mod_cast hn
  have hn0 : (0 : ℚ) ≤ n := by positivity
  have e51 : (1 / 2 ^ 51 : ℚ) = 4 * (1 / 2 ^ 53) := by norm_num
  have hnu : (n : ℚ) * (1 / 2 ^ 53) ≤ 1 / 8 :=
    (mul_le_mul_of_nonneg_right hn' (by positivity)).trans (by norm_num)
  have hu : (1 / 2 ^ 53 : ℚ) ≤ 1 / 1000 := by norm_num
  have hu0 : (0 : ℚ) < 1 / 2 ^ 53 := by positivity
  rw [div_eq_mul_one_div ((n : ℚ) + 3), e51]
  clear hn hn' e51
  subst g
  generalize (1 / 2 ^ 53 : ℚ) = u at *
  have h1 : (1 + u) ^ n ≤ 1 + 2 * n * u := pow_one_add_le hu0.le n (by linarith)
  have h0 : 0 ≤ (1 + u) ^ n - 1 := sub_nonneg.2 (one_le_pow₀ (by linarith))
  have h3 : dotErr u (fun k => (1 + u) ^ k - 1) n ≤ (2 * n + 2) * u := by
    rw [dotErr]
    have : ((1 + u) ^ n - 1) * (1 + u) ≤ 2 * n * u * (1 + u) :=
      mul_le_mul_of_nonneg_right (by linarith) (by linarith)
    nlinarith
  have h4 : 0 ≤ dotErr u (fun k => (1 + u) ^ k - 1) n := by rw [dotErr]; positivity
  obtain ⟨a, b⟩ := unit_bounds hu0.le h4 (by linarith)
  refine ⟨h0, ?_, ?_, ?_⟩ <;> linarith

/-- **C144** (binary64) On the sphere and in every column of the oblique manifold, points computed
by `retraction` or drawn at random have squared norms within `(n + 3) / 2 ** 51` of 1, for vectors
of up to `2 ** 50` entries summed from left to right. -/
theorem C144_binary64 (hn : 0 < n) (hn' : n ≤ 2 ^ 50) :
    let A := b64Arith acos acosh atanh log
    (∀ x v y : Fin n → ℚ, sphereRetractionFl A x v = some y →
      |∑ i, y i ^ 2 - 1| ≤ ((n : ℚ) + 3) / 2 ^ 51) ∧
    (∀ draw y : Fin n → ℚ, sphereNormalizeFl A draw = some y →
      |∑ i, y i ^ 2 - 1| ≤ ((n : ℚ) + 3) / 2 ^ 51) ∧
    (∀ {k : ℕ} (x v : Fin n → Fin k → ℚ) (j : Fin k) (y : Fin n → ℚ),
      oblRetractionFl A x v j = some y → |∑ i, y i ^ 2 - 1| ≤ ((n : ℚ) + 3) / 2 ^ 51) ∧
    ∀ z v y : ℚ × ℚ, ccRetractionFl A z v = some y → |y.1 ^ 2 + y.2 ^ 2 - 1| ≤ 1 / 2 ^ 50 := by
  intro A
  have hA := b64Arith_relErr acos acosh atanh log
  obtain ⟨h0, h1, h2, h3⟩ := b64_near hn'
  have key : ∀ y : Fin n → ℚ, NearUnit (unitLo (1 / 2 ^ 53) (dotErr (1 / 2 ^ 53)
      (fun k => (1 + 1 / 2 ^ 53 : ℚ) ^ k - 1) n)) (unitHi (1 / 2 ^ 53) (dotErr (1 / 2 ^ 53)
      (fun k => (1 + 1 / 2 ^ 53 : ℚ) ^ k - 1) n)) y → |∑ i, y i ^ 2 - 1| ≤ ((n : ℚ) + 3) / 2 ^ 51 := by
    rintro y ⟨a, b⟩
    rw [abs_le]
    constructor <;> linarith
  refine ⟨fun x v y hy => key y ((C144_sphere hA h0 h1 hn).1 x v y hy),
    fun d y hy => key y ((C144_sphere hA h0 h1 hn).2.2 d y hy),
    fun x v j y hy => key y ((C144_oblique hA h0 h1 hn).1 x v j y hy), fun z v y hy => ?_⟩
  obtain ⟨a, b⟩ := (C144_complexCircle hA).1 z v y hy
  have c : (1 - 1 / 2 ^ 50 : ℚ) ≤ (1 - 1 / 2 ^ 53) ^ 4 / (1 + 1 / 2 ^ 53) ^ 2 := by norm_num
  have d : (1 + 1 / 2 ^ 53 : ℚ) ^ 4 / (1 - 1 / 2 ^ 53) ^ 2 ≤ 1 + 1 / 2 ^ 50 := by norm_num
  rw [abs_le]
  constructor <;> linarith

/-- **C144** (binary64) Symmetric parts are symmetric, skew-symmetric parts skew-symmetric and
positive matrices stay positive in binary64. -/
theorem C144_binary64_matrices (half : ℚ) :
    let A := b64Arith acos acosh atanh log
    (∀ (a : Fin n → Fin n → ℚ) i j, multisymFl A half a i j = multisymFl A half a j i) ∧
    (∀ (a : Fin n → Fin n → ℚ) i j, multiskewFl A half a i j = -multiskewFl A half a j i) ∧
    ∀ p v : Fin n → ℚ, (∀ i, 0 < p i) → ∃ y, posRetractFl A p v = some y ∧ ∀ i, 0 < y i := by
  intro A
  refine ⟨C144_symmetric (fun x y => ?_) half, C144_skew (fun x y => ?_) (fun x y => ?_) half,
    fun p v hp => C144_positive (b64Arith_relErr acos acosh atanh log) (by norm_num) p v hp⟩
  · change b64 (x + y) = b64 (y + x)
    rw [add_comm]
  · change b64 (x - y) = -b64 (y - x)
    rw [← b64_neg, neg_sub]
  · change b64 (x * -y) = -b64 (x * y)
    rw [← b64_neg, mul_neg]

/-! ## The Poincaré ball -/

/-- An implementation of `tanh` that rounds, to binary64, a value with an error of at most
`2 ** -60`. -/
def RoundsTanh (tanh : ℚ → ℚ) : Prop :=
  ∀ x : ℚ, ∃ q : ℚ, |q| ≤ 1 ∧ |(q : ℝ) - Real.tanh x| ≤ 1 / 2 ^ 60 ∧ tanh x = b64 q

/-- There are such implementations. -/
theorem exists_roundsTanh : ∃ tanh, RoundsTanh tanh := by
  have : ∀ x : ℚ, ∃ q : ℚ, |q| ≤ 1 ∧ |(q : ℝ) - Real.tanh x| ≤ 1 / 2 ^ 60 := by
    intro x
    have h1 := Real.tanh_lt_one (x : ℝ)
    have h2 := Real.neg_one_lt_tanh (x : ℝ)
    obtain ⟨q, a, b⟩ := exists_rat_btwn (lt_min h1
      (show Real.tanh (x : ℝ) < Real.tanh x + 1 / 2 ^ 60 from lt_add_of_pos_right _ (by positivity)))
    obtain ⟨b1, b2⟩ := lt_min_iff.1 b
    refine ⟨q, ?_, ?_⟩
    · rw [abs_le]
      constructor
      · have : (-1 : ℝ) ≤ q := by linarith
        exact_mod_cast this
      · exact_mod_cast b1.le
    · rw [abs_le]
      constructor <;> linarith [show (0 : ℝ) < 1 / 2 ^ 60 by positivity]
  choose f hf using this
  exact ⟨fun x => b64 (f x), fun x => ⟨f x, (hf x).1, (hf x).2, rfl⟩⟩

theorem tanh_twenty : 1 - 1 / 2 ^ 56 ≤ Real.tanh 20 := by
  have e : (2 : ℝ) ^ 57 ≤ Real.exp 1 ^ 40 :=
    le_trans (by norm_num) (pow_le_pow_left₀ (by norm_num) Real.exp_one_gt_d9.le 40)
  have e40 : Real.exp 20 * Real.exp 20 = Real.exp 1 ^ 40 := by
    rw [← Real.exp_add, ← Real.exp_nat_mul]
    norm_num
  have e0 : Real.exp 20 * Real.exp (-20) = 1 := by rw [← Real.exp_add]; simp
  have p := Real.exp_pos 20
  have q := Real.exp_pos (-20)
  rw [Real.tanh_eq_sinh_div_cosh, Real.sinh_eq, Real.cosh_eq, le_div_iff₀ (by positivity)]
  rw [← e40] at e
  have : Real.exp (-20) * 2 ^ 57 ≤ Real.exp 20 := by
    calc Real.exp (-20) * 2 ^ 57 ≤ Real.exp (-20) * (Real.exp 20 * Real.exp 20) :=
          mul_le_mul_of_nonneg_left e q.le
      _ = Real.exp 20 * Real.exp (-20) * Real.exp 20 := by ring
      _ = Real.exp 20 := by rw [e0, one_mul]
  norm_num at this ⊢
  linarith

theorem roundsTanh_twenty {tanh : ℚ → ℚ} (h : RoundsTanh tanh) : tanh 20 = 1 := by
  obtain ⟨q, h1, h2, h3⟩ := h 20
  rw [h3]
  have t := tanh_twenty
  push_cast at h2
  refine b64_just_below_one ?_ (abs_le.1 h1).2
  refine (Rat.cast_le (K := ℝ)).1 ?_
  have := (abs_le.1 h2).1
  push_cast
  norm_num at this t ⊢
  linarith

/-- The tangent vector 20 at the centre of the Poincaré ball of dimension 1. -/
def longVector : Fin 1 → ℚ := fun _ => 20

theorem pbExp_longVector :
    pbExp1Fl (b64Arith 0 0 0 0) (fun _ => 1) (fun _ => 0) longVector = some fun _ => 1 := by
  decide +kernel

/-- **C144** does not extend to the Poincaré ball: in binary64 `retraction(0, 20)` is 1, a point of
the boundary, and all further retractions from there are NaN. -/
theorem C144_negation_poincare {tanh : ℚ → ℚ} (h : RoundsTanh tanh) :
    let A := b64Arith acos acosh atanh log
    (pbExp1Fl A tanh (fun _ => 0) longVector = some fun _ => 1) ∧
      ∀ v, pbExp1Fl A tanh (fun _ : Fin 1 => 1) v = none := by
  intro A
  constructor
  · have n1 : normFl A longVector = some 20 := by
      change normFl (b64Arith 0 0 0 0) longVector = some 20
      decide +kernel
    have n2 : A.divO 2 (A.sub 1 (dotFl A (fun _ : Fin 1 => 0) fun _ => 0)) = some 2 := by
      change (b64Arith 0 0 0 0).divO 2 ((b64Arith 0 0 0 0).sub 1
        (dotFl (b64Arith 0 0 0 0) (fun _ : Fin 1 => 0) fun _ => 0)) = some 2
      decide +kernel
    have n3 : A.div (A.mul 20 2) 2 = 20 := by
      change b64 (b64 (20 * 2) / 2) = 20
      decide +kernel
    have e : pbExp1Fl A tanh (fun _ => 0) longVector =
        pbExp1Fl (b64Arith 0 0 0 0) (fun _ => 1) (fun _ => 0) longVector := by
      change pbExp1Fl A tanh (fun _ => 0) longVector = pbExp1Fl A (fun _ => 1) (fun _ => 0) longVector
      unfold pbExp1Fl
      rw [n1, Option.bind_some, n2, Option.bind_some, n3, roundsTanh_twenty h]
      rfl
    rw [e, pbExp_longVector]
  · intro v
    have n2 : A.divO 2 (A.sub 1 (dotFl A (fun _ : Fin 1 => 1) fun _ => 1)) = none := by
      change (b64Arith 0 0 0 0).divO 2 ((b64Arith 0 0 0 0).sub 1
        (dotFl (b64Arith 0 0 0 0) (fun _ : Fin 1 => 1) fun _ => 1)) = none
      decide +kernel
    unfold pbExp1Fl
    rw [n2]
    cases normFl A v <;> rfl

end

/-! ## Examples -/

/-- Binary64 with any implementation of the transcendental functions has relative errors. -/
example : RelErr (b64Arith 0 0 0 0) (1 / 2 ^ 53) fun n => (1 + 1 / 2 ^ 53) ^ n - 1 :=
  b64Arith_relErr 0 0 0 0

/-- Ten entries: the squared norm is wrong by at most `13 / 2 ** 51`. -/
example (x v y : Fin 10 → ℚ) (h : sphereRetractionFl (b64Arith 0 0 0 0) x v = some y) :
    |∑ i, y i ^ 2 - 1| ≤ ((10 : ℕ) + 3 : ℚ) / 2 ^ 51 :=
  (C144_binary64 (by norm_num) (by norm_num)).1 x v y h

/-- A retraction that is not NaN, and not exactly of norm 1. -/
example : ∃ y, sphereRetractionFl (b64Arith 0 0 0 0) ![1, 0] ![0, (5 : ℚ)] = some y ∧
    y 0 ^ 2 + y 1 ^ 2 ≠ 1 := by
  refine ⟨fun i => ((oblNormalizeFl (b64Arith 0 0 0 0) rawColumn 0).getD 0) i, ?_, ?_⟩
  · rw [oblNormalize_rawColumn]
    decide +kernel
  · rw [oblNormalize_rawColumn]
    decide +kernel

open Verif.Opt in
/-- Minimising the first entry on the circle in binary64. -/
def roundedCircle : Prob Q (Option (Fin 2 → ℚ)) (Option (Fin 2 → ℚ)) :=
  let A := b64Arith 0 0 0 0
  let num : Option ℚ → Q := fun o => ⟨true, match o with | some q => .fin q | none => .nan⟩
  { M :=
      { dim := 1
        norm := fun _ v => num (v.bind fun v => normFl A v)
        inner := fun _ a b => num (a.bind fun a => b.map fun b => dotFl A a b)
        retraction := fun x v => x.bind fun x => v.bind fun v => sphereRetractionFl A x v
        transport := fun _ y v => y.bind fun y => v.map fun v => sphereProjFl A y v
        log := fun _ _ => none
        pairMean := fun a b => a.bind fun a => b.bind fun b => spherePairMeanFl A a b
        zeroVector := fun _ => some 0
        toTangent := fun x v => x.bind fun x => v.map fun v => sphereProjFl A x v
        add := fun a b => a.bind fun a => b.map fun b i => A.add (a i) (b i)
        sub := fun a b => a.bind fun a => b.map fun b i => A.sub (a i) (b i)
        neg := fun a => a.map fun a i => -a i
        smul := fun c a => match c.v with
          | .fin c => a.map fun a i => A.mul c (a i)
          | _ => none }
    cost := fun x => num (x.map fun x => x 0)
    grad := fun x => x.map fun x => sphereProjFl A x ![1, 0]
    hess := fun _ v => v
    precon := fun _ v => v }

open Verif.Opt in
/-- The problem meets the hypotheses of `C144_runs_sphere`, and steepest descent makes a run on it
whose last point is not exactly on the circle. -/
example : (RunsKeep roundedCircle fun x => ∀ y ∈ x, NearUnit
      (unitLo (1 / 2 ^ 53) (dotErr (1 / 2 ^ 53) (fun n => (1 + 1 / 2 ^ 53) ^ n - 1) 2))
      (unitHi (1 / 2 ^ 53) (dotErr (1 / 2 ^ 53) (fun n => (1 + 1 / 2 ^ 53) ^ n - 1) 2)) y) ∧
    ∃ r m, SDRuns { defaultCfg with maxIterations := 2 }
      (backTracking _ _ defaultBackTracking) roundedCircle stillClock (some ![0, 1]) none
      (.ok (r, m)) ∧ ∃ y, some y = r.point ∧ y 0 ^ 2 + y 1 ^ 2 ≠ 1 := by
  obtain ⟨h0, h1, -, -⟩ := b64_near (n := 2) (by norm_num)
  refine ⟨C144_runs_sphere (b64Arith_relErr 0 0 0 0) h0 h1 two_pos fun _ _ => rfl, ?_⟩
  obtain ⟨r, hr, he⟩ := exists_of_checkFuel (n := 4)
    (p := isOk fun r => match r.1.point with
      | some y => decide (y 0 ^ 2 + y 1 ^ 2 ≠ 1)
      | none => false)
    (step := sdStep { defaultCfg with maxIterations := 2 } (backTracking _ _ defaultBackTracking)
      roundedCircle stillClock)
    (s := sdInit { defaultCfg with maxIterations := 2 } (some ![0, 1]) none)
    (by decide +kernel)
  obtain ⟨⟨r, m⟩, rfl, he'⟩ := exists_of_isOk he
  refine ⟨r, m, hr, ?_⟩
  split at he'
  · rename_i y hy
    exact ⟨y, hy.symm, of_decide_eq_true he'⟩
  · cases he'

end Verif.Geo
