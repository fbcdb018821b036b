/-
Rounding to binary64 (IEEE 754 double precision), round to nearest, ties to even, on rationals.
Simplification: the exponent is unbounded, so there are no subnormal numbers, underflows or
overflows.  `b64_error` and `b64_idem` show that this is rounding to 53 significant bits with the
usual bound on the relative error.
-/
import Mathlib.Algebra.Order.Field.Power
import Mathlib.Data.Rat.Floor
import Mathlib.Tactic.Linarith
import Mathlib.Tactic.Positivity
import Mathlib.Tactic.FieldSimp
import Mathlib.Tactic.Ring

namespace Verif

/-- The nearest integer, ties to even. -/
def roundEven (q : ℚ) : ℤ :=
  let f := ⌊q⌋
  if q - f < 1 / 2 then f
  else if 1 / 2 < q - f then f + 1
  else if f % 2 = 0 then f else f + 1

/-- The exponent of the last place of a number of 53 bits: `2 ^ 52 ≤ |q| / 2 ^ e < 2 ^ 53`. -/
def lastPlace (q : ℚ) : ℤ :=
  let e : ℤ := (Nat.log2 q.num.natAbs : ℤ) - Nat.log2 q.den - 52
  if |q| < 2 ^ 52 * (2 : ℚ) ^ e then e - 1 else e

/-- Rounding to binary64. -/
def b64 (q : ℚ) : ℚ := if q = 0 then 0 else roundEven (q / 2 ^ lastPlace q) * 2 ^ lastPlace q

theorem roundEven_error (q : ℚ) : |(roundEven q : ℚ) - q| ≤ 1 / 2 := by
  have h0 := Int.floor_le q
  have h1 := Int.lt_floor_add_one q
  unfold roundEven
  simp only
  split
  · rw [abs_le]; constructor <;> linarith
  · split
    · push_cast; rw [abs_le]; constructor <;> linarith
    · split
      · rw [abs_le]; constructor <;> linarith
      · push_cast; rw [abs_le]; constructor <;> linarith

/-- Of two nearest integers the even one is taken. -/
theorem roundEven_even {q : ℚ} (h : |(roundEven q : ℚ) - q| = 1 / 2) : roundEven q % 2 = 0 := by
  have h0 := Int.floor_le q
  have h1 := Int.lt_floor_add_one q
  unfold roundEven at h ⊢
  simp only at h ⊢
  split_ifs at h ⊢ with a b c
  · rw [abs_of_nonpos (by linarith)] at h
    linarith
  · push_cast at h
    rw [abs_of_pos (by linarith)] at h
    linarith
  · exact c
  · omega

theorem roundEven_int (n : ℤ) : roundEven n = n := by
  unfold roundEven
  simp

theorem le_roundEven {n : ℤ} {q : ℚ} (h : (n : ℚ) ≤ q) : n ≤ roundEven q := by
  have hf : n ≤ ⌊q⌋ := Int.le_floor.2 h
  unfold roundEven
  simp only
  split_ifs <;> omega

theorem roundEven_le {n : ℤ} {q : ℚ} (h : q ≤ (n : ℚ)) : roundEven q ≤ n := by
  by_contra hc
  have hc : n + 1 ≤ roundEven q := by omega
  have he := roundEven_error q
  rw [abs_le] at he
  have : ((n : ℚ) + 1) ≤ roundEven q := by exact_mod_cast hc
  linarith

theorem roundEven_neg (q : ℚ) : roundEven (-q) = -roundEven q := by
  have h0 := Int.floor_le q
  have h1 := Int.lt_floor_add_one q
  rcases h0.eq_or_lt with h | h
  · rw [← h, ← Int.cast_neg, roundEven_int, roundEven_int]
  · have hf : ⌊-q⌋ = -⌊q⌋ - 1 := by
      rw [Int.floor_eq_iff]
      push_cast
      constructor <;> linarith
    unfold roundEven
    simp only [hf]
    push_cast
    rcases lt_trichotomy (q - ⌊q⌋) (1 / 2) with h2 | h2 | h2
    · rw [if_neg (by linarith), if_pos (by linarith), if_pos h2]
      ring
    · split_ifs <;> first | omega | (exfalso; linarith)
    · rw [if_pos (by linarith), if_neg (by linarith), if_pos h2]
      ring

theorem log2_bounds {n : ℕ} (h : n ≠ 0) :
    (2 : ℚ) ^ (Nat.log2 n : ℤ) ≤ n ∧ (n : ℚ) < 2 ^ ((Nat.log2 n : ℤ) + 1) := by
  have h1 : 2 ^ Nat.log2 n ≤ n := Nat.log2_self_le h
  have h2 : n < 2 ^ (Nat.log2 n + 1) := Nat.lt_log2_self
  constructor
  · rw [zpow_natCast]; exact_mod_cast h1
  · have : ((Nat.log2 n : ℤ) + 1) = ((Nat.log2 n + 1 : ℕ) : ℤ) := by push_cast; ring
    rw [this, zpow_natCast]; exact_mod_cast h2

/-- `lastPlace` puts the leading bit in the right place. -/
theorem lastPlace_spec {q : ℚ} (h : q ≠ 0) :
    2 ^ 52 * (2 : ℚ) ^ lastPlace q ≤ |q| ∧ |q| < 2 ^ 53 * (2 : ℚ) ^ lastPlace q := by
  have hn : q.num.natAbs ≠ 0 := by simpa using h
  obtain ⟨n1, n2⟩ := log2_bounds hn
  obtain ⟨d1, d2⟩ := log2_bounds q.den_nz
  have hd : (0 : ℚ) < q.den := by exact_mod_cast q.den_pos
  have hq : |q| = (q.num.natAbs : ℚ) / q.den := by
    conv_lhs => rw [← Rat.num_div_den q]
    rw [abs_div, abs_of_pos hd, Nat.cast_natAbs, Int.cast_abs]
  set a : ℤ := (Nat.log2 q.num.natAbs : ℤ)
  set b : ℤ := (Nat.log2 q.den : ℤ)
  have two : (2 : ℚ) ≠ 0 := by norm_num
  have up : |q| < 2 ^ (a - b + 1) := by
    rw [hq, div_lt_iff₀ hd]
    calc (q.num.natAbs : ℚ) < 2 ^ (a + 1) := n2
      _ = 2 ^ (a - b + 1) * 2 ^ b := by rw [← zpow_add₀ two]; congr 1; ring
      _ ≤ _ := mul_le_mul_of_nonneg_left d1 (by positivity)
  have lo : 2 ^ (a - b - 1) < |q| := by
    rw [hq, lt_div_iff₀ hd]
    calc (2 : ℚ) ^ (a - b - 1) * q.den < 2 ^ (a - b - 1) * 2 ^ (b + 1) :=
          mul_lt_mul_of_pos_left d2 (by positivity)
      _ = 2 ^ a := by rw [← zpow_add₀ two]; congr 1; ring
      _ ≤ _ := n1
  have p52 : (2 : ℚ) ^ 52 = 2 ^ (52 : ℤ) := by norm_cast
  have p53 : (2 : ℚ) ^ 53 = 2 ^ (53 : ℤ) := by norm_cast
  unfold lastPlace
  simp only
  split
  · rename_i hc
    rw [p52, p53, ← zpow_add₀ two, ← zpow_add₀ two]
    rw [p52, ← zpow_add₀ two] at hc
    constructor
    · refine le_of_eq_of_le ?_ lo.le
      congr 1; ring
    · refine lt_of_lt_of_eq hc ?_
      congr 1; ring
  · rename_i hc
    refine ⟨not_lt.1 hc, ?_⟩
    rw [p53, ← zpow_add₀ two]
    refine lt_of_lt_of_eq up ?_
    congr 1; ring

theorem lastPlace_neg (q : ℚ) : lastPlace (-q) = lastPlace q := by
  simp [lastPlace]

/-- Rounding to nearest is odd. -/
theorem b64_neg (q : ℚ) : b64 (-q) = -b64 q := by
  unfold b64
  rw [lastPlace_neg, neg_div, roundEven_neg]
  split_ifs with h h' h'
  · simp
  · exact absurd (neg_eq_zero.1 h) h'
  · exact absurd (neg_eq_zero.2 h') h
  · push_cast
    ring

/-- The relative error of rounding is at most `2 ^ -53`. -/
theorem b64_error (q : ℚ) : |b64 q - q| ≤ |q| / 2 ^ 53 := by
  unfold b64
  split
  · rename_i h; simp [h]
  rename_i h
  obtain ⟨h1, -⟩ := lastPlace_spec h
  have hp : (0 : ℚ) < 2 ^ lastPlace q := by positivity
  have he := roundEven_error (q / 2 ^ lastPlace q)
  have : (roundEven (q / 2 ^ lastPlace q) : ℚ) * 2 ^ lastPlace q - q =
      (roundEven (q / 2 ^ lastPlace q) - q / 2 ^ lastPlace q) * 2 ^ lastPlace q := by
    field_simp
  rw [this, abs_mul, abs_of_pos hp]
  calc _ ≤ 1 / 2 * (2 : ℚ) ^ lastPlace q := mul_le_mul_of_nonneg_right he hp.le
    _ ≤ _ := by rw [le_div_iff₀ (by positivity)]; linarith

/-- A number of the form `m * 2 ^ e` with at most 53 bits is not changed. -/
theorem b64_exact {m e : ℤ} (hm : |m| ≤ 2 ^ 53) : b64 (m * 2 ^ e) = m * 2 ^ e := by
  unfold b64
  split
  · rename_i h; exact h.symm
  rename_i h
  obtain ⟨h1, h2⟩ := lastPlace_spec h
  set p := lastPlace ((m : ℚ) * 2 ^ e)
  have two : (2 : ℚ) ≠ 0 := by norm_num
  have he : (0 : ℚ) < 2 ^ e := by positivity
  have hp : (0 : ℚ) < 2 ^ p := by positivity
  have habs : |(m : ℚ) * 2 ^ e| = |(m : ℚ)| * 2 ^ e := by rw [abs_mul, abs_of_pos he]
  rw [habs] at h1 h2
  have hm' : |(m : ℚ)| ≤ 2 ^ 53 := by exact_mod_cast hm
  -- the last place is at most `e + 1`
  rcases le_or_gt p e with hpe | hpe
  · obtain ⟨k, hk⟩ := Int.eq_ofNat_of_zero_le (sub_nonneg.2 hpe)
    have : (m : ℚ) * 2 ^ e / 2 ^ p = ((m * 2 ^ k : ℤ) : ℚ) := by
      rw [mul_div_assoc, ← zpow_sub₀ two, hk]; push_cast; simp
    rw [this, roundEven_int, ← this]
    field_simp
  · have h3 : (2 : ℚ) ^ 52 * 2 ^ p ≤ 2 ^ 53 * 2 ^ e :=
      h1.trans (mul_le_mul_of_nonneg_right hm' he.le)
    have h4 : (2 : ℚ) ^ p ≤ 2 ^ (e + 1) := by
      rw [zpow_add₀ two, zpow_one]; nlinarith
    have h5 : p ≤ e + 1 := (zpow_le_zpow_iff_right₀ (by norm_num : (1 : ℚ) < 2)).1 h4
    have h6 : p = e + 1 := by omega
    have h7 : |(m : ℚ)| = 2 ^ 53 := by
      refine le_antisymm hm' ?_
      rw [h6, zpow_add₀ two, zpow_one] at h1
      have : (2 : ℚ) ^ 53 * 2 ^ e ≤ |(m : ℚ)| * 2 ^ e := by linarith
      exact le_of_mul_le_mul_right this he
    have h8 : m = 2 * 2 ^ 52 ∨ m = 2 * -2 ^ 52 := by
      have h7 : |m| = 2 ^ 53 := by exact_mod_cast h7
      rcases abs_choice m with h | h <;> omega
    obtain ⟨w, rfl⟩ : ∃ w, m = 2 * w := by
      rcases h8 with h | h <;> exact ⟨_, h⟩
    have : ((2 * w : ℤ) : ℚ) * 2 ^ e / 2 ^ p = ((w : ℤ) : ℚ) := by
      rw [h6, zpow_add₀ two, zpow_one]; push_cast; field_simp
    rw [this, roundEven_int, ← this]
    field_simp

/-- Rounding twice is rounding once. -/
theorem b64_idem (q : ℚ) : b64 (b64 q) = b64 q := by
  by_cases h : q = 0
  · simp [b64, h]
  obtain ⟨-, h2⟩ := lastPlace_spec h
  have hp : (0 : ℚ) < 2 ^ lastPlace q := by positivity
  have : b64 q = roundEven (q / 2 ^ lastPlace q) * 2 ^ lastPlace q := by
    rw [b64, if_neg h]
  rw [this]
  refine b64_exact ?_
  have h3 : |q / 2 ^ lastPlace q| ≤ 2 ^ 53 := by
    rw [abs_div, abs_of_pos hp, div_le_iff₀ hp]; exact h2.le
  rw [abs_le] at h3 ⊢
  exact ⟨le_roundEven (by push_cast; exact h3.1), roundEven_le (by push_cast; exact h3.2)⟩

theorem b64_zero : b64 0 = 0 := by simp [b64]

theorem b64_one : b64 1 = 1 := by
  have := b64_exact (m := 1) (e := 0) (by norm_num)
  simpa using this

theorem b64_pos {q : ℚ} (h : 0 < q) : 0 < b64 q := by
  have h1 := b64_error q
  rw [abs_le, abs_of_pos h] at h1
  have : q / 2 ^ 53 < q := by rw [div_lt_iff₀ (by positivity)]; nlinarith
  linarith

theorem b64_nonneg {q : ℚ} (h : 0 ≤ q) : 0 ≤ b64 q := by
  rcases h.eq_or_lt with rfl | h
  · rw [b64_zero]
  · exact (b64_pos h).le

/-- Numbers just below 1 are rounded to 1. -/
theorem b64_just_below_one {q : ℚ} (h1 : 1 - 1 / 2 ^ 55 ≤ q) (h2 : q ≤ 1) : b64 q = 1 := by
  rcases h2.eq_or_lt with rfl | h2
  · exact b64_one
  have hq : 0 < q := lt_of_lt_of_le (by norm_num) h1
  obtain ⟨a, b⟩ := lastPlace_spec hq.ne'
  rw [abs_of_pos hq] at a b
  have p52 : (2 : ℚ) ^ 52 = 2 ^ (52 : ℤ) := by norm_cast
  have p53 : (2 : ℚ) ^ 53 = 2 ^ (53 : ℤ) := by norm_cast
  have two : (2 : ℚ) ≠ 0 := by norm_num
  rw [p52, ← zpow_add₀ two] at a
  rw [p53, ← zpow_add₀ two] at b
  have e1 : (52 : ℤ) + lastPlace q < 0 := by
    refine (zpow_lt_zpow_iff_right₀ (a := (2 : ℚ)) (by norm_num)).1 ?_
    rw [zpow_zero]
    exact a.trans_lt h2
  have e2 : (-1 : ℤ) < 53 + lastPlace q := by
    refine (zpow_lt_zpow_iff_right₀ (a := (2 : ℚ)) (by norm_num)).1 ?_
    refine lt_trans ?_ b
    refine lt_of_lt_of_le ?_ h1
    norm_num
  have e : lastPlace q = -53 := by omega
  have hr := roundEven_error (q / 2 ^ (-53 : ℤ))
  have hz : q / (2 : ℚ) ^ (-53 : ℤ) = q * 2 ^ 53 := by rw [zpow_neg, div_inv_eq_mul, p53]
  rw [b64, if_neg hq.ne', e]
  rw [hz] at hr ⊢
  obtain ⟨r1, r2⟩ := abs_le.1 hr
  have i1 : (2 ^ 53 - 1 : ℤ) < roundEven (q * 2 ^ 53) := by
    have : ((2 ^ 53 - 1 : ℤ) : ℚ) < roundEven (q * 2 ^ 53) := by
      push_cast
      norm_num at h1 r1 ⊢
      linarith
    exact_mod_cast this
  have i2 : roundEven (q * 2 ^ 53) < (2 ^ 53 + 1 : ℤ) := by
    have : (roundEven (q * 2 ^ 53) : ℚ) < ((2 ^ 53 + 1 : ℤ) : ℚ) := by
      push_cast
      norm_num at r2 ⊢
      linarith
    exact_mod_cast this
  have i : roundEven (q * 2 ^ 53) = 2 ^ 53 := by omega
  rw [i]
  norm_num

theorem one_le_b64 {q : ℚ} (h : 1 ≤ q) : 1 ≤ b64 q := by
  have h0 : 0 < q := by linarith
  obtain ⟨h1, h2⟩ := lastPlace_spec h0.ne'
  rw [abs_of_pos h0] at h1 h2
  have hp : (0 : ℚ) < 2 ^ lastPlace q := by positivity
  have two : (2 : ℚ) ≠ 0 := by norm_num
  have h3 : (2 : ℚ) ^ (-53 : ℤ) < 2 ^ lastPlace q := by
    rw [zpow_neg, inv_lt_iff_one_lt_mul₀ (by positivity)]
    have : (2 : ℚ) ^ (53 : ℤ) = 2 ^ 53 := by norm_cast
    rw [this]
    linarith
  have h4 : -53 < lastPlace q := (zpow_lt_zpow_iff_right₀ (by norm_num : (1 : ℚ) < 2)).1 h3
  have h5 : (2 : ℚ) ^ (-52 : ℤ) ≤ 2 ^ lastPlace q :=
    zpow_le_zpow_right₀ (by norm_num) (by omega)
  have h6 : (2 : ℤ) ^ 52 ≤ roundEven (q / 2 ^ lastPlace q) := by
    refine le_roundEven ?_
    rw [le_div_iff₀ hp]
    push_cast
    exact h1
  have h7 : (2 : ℚ) ^ 52 ≤ roundEven (q / 2 ^ lastPlace q) := by exact_mod_cast h6
  rw [b64, if_neg h0.ne']
  calc (1 : ℚ) = 2 ^ 52 * 2 ^ (-52 : ℤ) := by norm_num
    _ ≤ _ := mul_le_mul h7 h5 (by positivity) (le_trans (by positivity) h7)

/-- The greatest `m < 2 ^ b` with `m ^ 2 ≤ n`, bit by bit. -/
def isqrt (n : ℕ) : ℕ → ℕ → ℕ
  | 0, m => m
  | b + 1, m => if (m + 2 ^ b) * (m + 2 ^ b) ≤ n then isqrt n b (m + 2 ^ b) else isqrt n b m

theorem isqrt_spec (n : ℕ) : ∀ b m, m * m ≤ n → n < (m + 2 ^ b) * (m + 2 ^ b) →
    isqrt n b m * isqrt n b m ≤ n ∧ n < (isqrt n b m + 1) * (isqrt n b m + 1)
  | 0, m, h0, h1 => by simpa [isqrt] using ⟨h0, h1⟩
  | b + 1, m, h0, h1 => by
    unfold isqrt
    split
    · rename_i h
      refine isqrt_spec n b _ h ?_
      have : m + 2 ^ b + 2 ^ b = m + 2 ^ (b + 1) := by ring
      rwa [this]
    · rename_i h
      exact isqrt_spec n b m h0 (not_le.1 h)

/-- The exponent of the last place of the square root: `2 ^ 104 ≤ q / 4 ^ e < 2 ^ 106`. -/
def sqrtPlace (q : ℚ) : ℤ := (lastPlace q - 52) / 2

/-- The square root rounded to binary64 (`0` for negative numbers). -/
def b64Sqrt (q : ℚ) : ℚ :=
  if q ≤ 0 then 0
  else
    let e := sqrtPlace q
    let r := q / 4 ^ e
    let m := isqrt ⌊r⌋.toNat 53 0
    (if r < (m + 1 / 2) ^ 2 then (m : ℚ)
      else if (m + 1 / 2) ^ 2 < r then (m : ℚ) + 1
      else if m % 2 = 0 then (m : ℚ) else (m : ℚ) + 1) * 2 ^ e

theorem b64Sqrt_nonneg (q : ℚ) : 0 ≤ b64Sqrt q := by
  unfold b64Sqrt
  split
  · exact le_rfl
  · simp only
    split_ifs <;> positivity

theorem sqrtPlace_spec {q : ℚ} (h : 0 < q) :
    2 ^ 104 ≤ q / 4 ^ sqrtPlace q ∧ q / 4 ^ sqrtPlace q < 2 ^ 106 := by
  obtain ⟨h1, h2⟩ := lastPlace_spec h.ne'
  rw [abs_of_pos h] at h1 h2
  have two : (2 : ℚ) ≠ 0 := by norm_num
  have four : (4 : ℚ) ^ sqrtPlace q = 2 ^ (2 * sqrtPlace q) := by
    rw [show (4 : ℚ) = 2 ^ (2 : ℤ) by norm_num, ← zpow_mul]
  have hp : (0 : ℚ) < 2 ^ (2 * sqrtPlace q) := by positivity
  have p52 : (2 : ℚ) ^ 52 = 2 ^ (52 : ℤ) := by norm_cast
  have p53 : (2 : ℚ) ^ 53 = 2 ^ (53 : ℤ) := by norm_cast
  have p104 : (2 : ℚ) ^ 104 = 2 ^ (104 : ℤ) := by norm_cast
  have p106 : (2 : ℚ) ^ 106 = 2 ^ (106 : ℤ) := by norm_cast
  have hs : 2 * sqrtPlace q ≤ lastPlace q - 52 ∧ lastPlace q - 52 < 2 * sqrtPlace q + 2 := by
    unfold sqrtPlace; omega
  rw [four, le_div_iff₀ hp, div_lt_iff₀ hp, p104, p106, ← zpow_add₀ two, ← zpow_add₀ two]
  rw [p52, ← zpow_add₀ two] at h1
  rw [p53, ← zpow_add₀ two] at h2
  exact ⟨(zpow_le_zpow_right₀ (by norm_num) (by omega)).trans h1,
    h2.trans_le (zpow_le_zpow_right₀ (by norm_num) (by omega))⟩

/-- The rounded square root is within half a unit in the last place of the square root. -/
theorem b64Sqrt_error {q : ℚ} (h : 0 < q) :
    (b64Sqrt q - 2 ^ sqrtPlace q / 2) ^ 2 ≤ q ∧ q ≤ (b64Sqrt q + 2 ^ sqrtPlace q / 2) ^ 2 ∧
      2 ^ 52 * 2 ^ sqrtPlace q ≤ b64Sqrt q := by
  obtain ⟨h1, h2⟩ := sqrtPlace_spec h
  have hp : (0 : ℚ) < 2 ^ sqrtPlace q := by positivity
  have four : (4 : ℚ) ^ sqrtPlace q = (2 ^ sqrtPlace q) ^ 2 := by
    rw [show (4 : ℚ) = 2 ^ (2 : ℤ) by norm_num, ← zpow_mul, ← zpow_natCast, ← zpow_mul, mul_comm]
    rfl
  set u : ℚ := 2 ^ sqrtPlace q
  set r : ℚ := q / 4 ^ sqrtPlace q
  have hq : q = r * u ^ 2 := by rw [← four]; simp only [r]; field_simp
  have hf0 : (2 : ℤ) ^ 104 ≤ ⌊r⌋ := Int.le_floor.2 (by push_cast; exact h1)
  have hf1 : ⌊r⌋ < 2 ^ 106 := Int.floor_lt.2 (by push_cast; exact h2)
  have hN : ((⌊r⌋.toNat : ℕ) : ℤ) = ⌊r⌋ := Int.toNat_of_nonneg (le_trans (by positivity) hf0)
  have hlt : ⌊r⌋.toNat < (0 + 2 ^ 53) * (0 + 2 ^ 53) := by
    have : ((⌊r⌋.toNat : ℕ) : ℤ) < ((0 + 2 ^ 53) * (0 + 2 ^ 53) : ℕ) := by
      rw [hN]; norm_num at hf1 ⊢; exact hf1
    exact_mod_cast this
  obtain ⟨s1, s2⟩ := isqrt_spec ⌊r⌋.toNat 53 0 (by simp) hlt
  have hb : b64Sqrt q = (if r < ((isqrt ⌊r⌋.toNat 53 0 : ℕ) + 1 / 2 : ℚ) ^ 2 then
      ((isqrt ⌊r⌋.toNat 53 0 : ℕ) : ℚ)
      else if ((isqrt ⌊r⌋.toNat 53 0 : ℕ) + 1 / 2 : ℚ) ^ 2 < r then
        ((isqrt ⌊r⌋.toNat 53 0 : ℕ) : ℚ) + 1
      else if isqrt ⌊r⌋.toNat 53 0 % 2 = 0 then ((isqrt ⌊r⌋.toNat 53 0 : ℕ) : ℚ)
      else ((isqrt ⌊r⌋.toNat 53 0 : ℕ) : ℚ) + 1) * u := by
    rw [b64Sqrt, if_neg (not_le.2 h)]
  set m : ℕ := isqrt ⌊r⌋.toNat 53 0
  have s1' : ((m : ℚ)) ^ 2 ≤ r := by
    have : ((m * m : ℕ) : ℤ) ≤ ⌊r⌋ := by rw [← hN]; exact_mod_cast s1
    have := Int.le_floor.1 this
    push_cast at this
    rw [sq]; exact this
  have s2' : r < ((m : ℚ) + 1) ^ 2 := by
    have : ⌊r⌋ < (((m + 1) * (m + 1) : ℕ) : ℤ) := by rw [← hN]; exact_mod_cast s2
    have := Int.floor_lt.1 this
    push_cast at this
    rw [sq]; exact this
  have hm52 : 2 ^ 52 ≤ m := by
    by_contra hc
    have : m + 1 ≤ 2 ^ 52 := by omega
    have : ((m : ℚ) + 1) ≤ 2 ^ 52 := by exact_mod_cast this
    have : ((m : ℚ) + 1) ^ 2 ≤ (2 ^ 52) ^ 2 := by
      exact pow_le_pow_left₀ (by positivity) this 2
    have h3 : ((2 : ℚ) ^ 52) ^ 2 = 2 ^ 104 := by norm_num
    linarith
  have hmq : (2 : ℚ) ^ 52 ≤ m := by exact_mod_cast hm52
  have key : ∀ c : ℚ, (2 : ℚ) ^ 52 ≤ c → (c - 1 / 2) ^ 2 ≤ r → r ≤ (c + 1 / 2) ^ 2 →
      (c * u - u / 2) ^ 2 ≤ q ∧ q ≤ (c * u + u / 2) ^ 2 ∧ 2 ^ 52 * u ≤ c * u := by
    intro c h0 hc1 hc2
    refine ⟨?_, ?_, mul_le_mul_of_nonneg_right h0 hp.le⟩
    · rw [hq, show c * u - u / 2 = (c - 1 / 2) * u by ring, mul_pow]
      exact mul_le_mul_of_nonneg_right hc1 (by positivity)
    · rw [hq, show c * u + u / 2 = (c + 1 / 2) * u by ring, mul_pow]
      exact mul_le_mul_of_nonneg_right hc2 (by positivity)
  have hm0 : (1 : ℚ) ≤ m := le_trans (by norm_num) hmq
  rw [hb]
  split_ifs with g1 g2 g3
  · exact key _ hmq (by nlinarith) g1.le
  · refine key _ (by linarith) ?_ (by nlinarith)
    rw [show (m : ℚ) + 1 - 1 / 2 = m + 1 / 2 by ring]; exact g2.le
  · exact key _ hmq (by nlinarith) (not_lt.1 g2)
  · refine key _ (by linarith) ?_ (by nlinarith)
    rw [show (m : ℚ) + 1 - 1 / 2 = m + 1 / 2 by ring]; exact not_lt.1 g1

/-- One third, the square root of two and the sum of a tenth and a fifth, as in every language with
doubles. -/
example : b64 (1 / 3) = 6004799503160661 / 2 ^ 54 ∧ b64Sqrt 2 = 6369051672525773 / 2 ^ 52 ∧
    b64 (b64 (1 / 10) + b64 (1 / 5)) = b64 (3 / 10) + 1 / 2 ^ 54 := by
  decide +kernel

end Verif
