/-
Lemmas on the formatting of numbers: lengths, and what reading a formatted number gives back.
-/
import Verif.Base.Format
import Mathlib.Tactic.IntervalCases
import Mathlib.Data.List.TakeWhile
import Mathlib.Tactic.NormNum.Pow

namespace Verif

theorem length_fixedDigits (w n : ℕ) : (fixedDigits w n).length = w := by
  induction w generalizing n with
  | zero => rfl
  | succ w ih => simp [fixedDigits, ih]

theorem digitValue_digitChar {d : ℕ} (h : d < 10) : digitValue (Nat.digitChar d) = d := by
  interval_cases d <;> rfl

/-- The characters that are not digits but occur in formatted numbers. -/
def isMark (c : Char) : Prop := c = '.' ∨ c = 'e' ∨ c = '+' ∨ c = '-' ∨ c = ' '

theorem digitChar_not_mark {d : ℕ} (h : d < 10) : ¬ isMark (Nat.digitChar d) := by
  unfold isMark
  interval_cases d <;> decide

theorem fixedDigits_not_mark {w n : ℕ} {c : Char} (h : c ∈ fixedDigits w n) : ¬ isMark c := by
  induction w generalizing n with
  | zero => simp [fixedDigits] at h
  | succ w ih =>
    simp only [fixedDigits, List.mem_append, List.mem_singleton] at h
    rcases h with h | rfl
    · exact ih h
    · exact digitChar_not_mark (Nat.mod_lt _ (by norm_num))

theorem foldl_fixedDigits (w n a : ℕ) :
    (fixedDigits w n).foldl (fun a c => 10 * a + digitValue c) a = a * 10 ^ w + n % 10 ^ w := by
  induction w generalizing n a with
  | zero => simp [fixedDigits, Nat.mod_one]
  | succ w ih =>
    simp only [fixedDigits, List.foldl_append, List.foldl_cons, List.foldl_nil]
    rw [ih, digitValue_digitChar (Nat.mod_lt _ (by norm_num)), pow_succ', Nat.mod_mul]
    ring

theorem readDigits_fixedDigits (w n : ℕ) : readDigits (fixedDigits w n) = n % 10 ^ w := by
  unfold readDigits
  rw [foldl_fixedDigits]
  simp

theorem readDigits_natText (n : ℕ) : readDigits (natText n) = n := by
  unfold natText
  rw [readDigits_fixedDigits]
  exact Nat.mod_eq_of_lt (Nat.lt_pow_succ_log_self (by norm_num) n)

theorem length_natText (n : ℕ) : (natText n).length = Nat.log 10 n + 1 :=
  length_fixedDigits _ _

theorem length_natText_le {n k : ℕ} (hk : 0 < k) (h : n < 10 ^ k) : (natText n).length ≤ k := by
  rw [length_natText]
  rcases Nat.eq_zero_or_pos n with rfl | hn
  · simp; omega
  · exact Nat.log_lt_of_lt_pow hn.ne' h

theorem natText_ne_nil (n : ℕ) : natText n ≠ [] := by
  intro h
  have := congrArg List.length h
  simp [length_natText] at this

theorem natText_not_mark {n : ℕ} {c : Char} (h : c ∈ natText n) : ¬ isMark c :=
  fixedDigits_not_mark h

theorem readSigned_of_not_mark {l : List Char} (h : ∀ c ∈ l, ¬ isMark c) :
    readSigned l = readDigits l := by
  unfold readSigned
  split
  · exact absurd (h '-' (by simp)) (by simp [isMark])
  · exact absurd (h '+' (by simp)) (by simp [isMark])
  · rfl

/-- Reading an integer gives it back. -/
theorem readSigned_intText (n : ℤ) : readSigned (intText n) = n := by
  unfold intText
  split
  · next h =>
    simp only [readSigned, readDigits_natText]
    omega
  · next h =>
    rw [readSigned_of_not_mark fun c hc => natText_not_mark hc, readDigits_natText]
    omega

theorem length_formatD (w : ℕ) (n : ℤ) :
    (formatD w n).length = max w (intText n).length := by
  unfold formatD
  simp
  omega

theorem length_intText_of_nonneg {n : ℤ} (h : 0 ≤ n) :
    (intText n).length = Nat.log 10 n.natAbs + 1 := by
  unfold intText
  rw [if_neg (by omega), length_natText]

/-! ### Significant digits -/

theorem significant_zero (prec : ℕ) : significant prec 0 = (0, 0) := by simp [significant]

theorem significant_spec (prec : ℕ) {a : ℚ} (ha : 0 < a) :
    10 ^ prec ≤ (significant prec a).1 ∧ (significant prec a).1 < 10 ^ (prec + 1) ∧
    ((significant prec a).2 = Int.log 10 a ∨ (significant prec a).2 = Int.log 10 a + 1) ∧
    |((significant prec a).1 : ℚ) * 10 ^ ((significant prec a).2 - prec) - a| ≤
      10 ^ (Int.log 10 a - prec) / 2 := by
  have h1 : (10 : ℚ) ^ Int.log 10 a ≤ a := by
    have := Int.zpow_log_le_self (b := 10) (r := a) (by norm_num) ha
    exact_mod_cast this
  have h2 : a < (10 : ℚ) ^ (Int.log 10 a + 1) := by
    have := Int.lt_zpow_succ_log_self (b := 10) (by norm_num) a
    exact_mod_cast this
  set e := Int.log 10 a with he
  have ten : (10 : ℚ) ≠ 0 := by norm_num
  have hp : (0 : ℚ) < 10 ^ (e - prec) := by positivity
  have l1 : (((10 ^ prec : ℕ) : ℤ) : ℚ) ≤ a / 10 ^ (e - prec) := by
    rw [le_div_iff₀ hp]
    refine le_of_eq_of_le ?_ h1
    push_cast
    rw [← zpow_natCast, ← zpow_add₀ ten]
    congr 1; ring
  have l2 : a / 10 ^ (e - prec) ≤ (((10 ^ (prec + 1) : ℕ) : ℤ) : ℚ) := by
    rw [div_le_iff₀ hp]
    refine le_of_le_of_eq h2.le ?_
    push_cast
    rw [← zpow_natCast, ← zpow_add₀ ten]
    congr 1; push_cast; ring
  have r1 := le_roundEven l1
  have r2 := roundEven_le l2
  set r := roundEven (a / 10 ^ (e - prec)) with hr
  obtain ⟨m, hm⟩ : ∃ m : ℕ, r = m := ⟨r.toNat, by
    have : (0 : ℤ) ≤ ((10 ^ prec : ℕ) : ℤ) := Int.natCast_nonneg _
    omega⟩
  have err : |(m : ℚ) * 10 ^ (e - prec) - a| ≤ 10 ^ (e - prec) / 2 := by
    have h3 := roundEven_error (a / 10 ^ (e - prec))
    rw [← hr, hm] at h3
    have : (m : ℚ) * 10 ^ (e - prec) - a = (m - a / 10 ^ (e - prec)) * 10 ^ (e - prec) := by
      field_simp
    rw [this, abs_mul, abs_of_pos hp]
    calc _ ≤ 1 / 2 * (10 : ℚ) ^ (e - prec) :=
          mul_le_mul_of_nonneg_right (by exact_mod_cast h3) hp.le
      _ = _ := by ring
  rw [hm] at r1 r2
  have r1 : 10 ^ prec ≤ m := by exact_mod_cast r1
  have r2 : m ≤ 10 ^ (prec + 1) := by exact_mod_cast r2
  have hs : significant prec a = if m = 10 ^ (prec + 1) then (10 ^ prec, e + 1) else (m, e) := by
    unfold significant
    rw [if_neg ha.ne']
    simp only [← he, ← hr, hm, Int.toNat_natCast]
  rw [hs]
  split
  · next hc =>
    refine ⟨le_rfl, Nat.pow_lt_pow_right (by norm_num) (by omega), Or.inr rfl, ?_⟩
    have : (((10 ^ prec : ℕ) : ℚ)) * 10 ^ (e + 1 - prec) = (m : ℚ) * 10 ^ (e - prec) := by
      rw [hc]
      push_cast
      rw [← zpow_natCast, ← zpow_natCast, ← zpow_add₀ ten, ← zpow_add₀ ten]
      congr 1; push_cast; ring
    simp only [this]
    exact err
  · next hc => exact ⟨r1, lt_of_le_of_ne r2 hc, Or.inl rfl, err⟩

/-! ### Reading back -/

theorem takeWhile_append_mark {p : Char → Bool} {l r : List Char} {c : Char}
    (h : ∀ x ∈ l, p x = true) (hc : p c = false) :
    (l ++ c :: r).takeWhile p = l ∧ (l ++ c :: r).dropWhile p = c :: r := by
  constructor
  · rw [List.takeWhile_append_of_pos h]
    simp [hc]
  · rw [List.dropWhile_append_of_pos h]
    simp [hc]

theorem readSigned_exponent (e : ℤ) : readSigned (exponentText e).tail = e := by
  have hlt : e.natAbs < 10 ^ max 2 (Nat.log 10 e.natAbs + 1) :=
    (Nat.lt_pow_succ_log_self (by norm_num) _).trans_le
      (Nat.pow_le_pow_right (by norm_num) (le_max_right _ _))
  unfold exponentText
  simp only [List.tail_cons]
  split
  · next h =>
    simp only [readSigned, readDigits_fixedDigits, Nat.mod_eq_of_lt hlt]
    omega
  · next h =>
    simp only [readSigned, readDigits_fixedDigits, Nat.mod_eq_of_lt hlt]
    omega

/-- Reading the digits of `formatE`. -/
theorem readUnsigned_digits {prec m : ℕ} (h : m < 10 ^ (prec + 1)) (e : ℤ) :
    readUnsigned ((Nat.digitChar (m / 10 ^ prec) :: '.' :: fixedDigits prec (m % 10 ^ prec)) ++
      exponentText e) = (m : ℚ) * 10 ^ (e - prec) := by
  have ten : (10 : ℚ) ≠ 0 := by norm_num
  have hd : m / 10 ^ prec < 10 := by
    rw [Nat.div_lt_iff_lt_mul (by positivity)]
    rwa [pow_succ'] at h
  have nm := digitChar_not_mark hd
  have hmark : ∀ x ∈ (Nat.digitChar (m / 10 ^ prec) :: '.' :: fixedDigits prec (m % 10 ^ prec)),
      decide (x ≠ 'e') = true := by
    intro x hx
    simp only [List.mem_cons] at hx
    rw [decide_eq_true_eq]
    rcases hx with rfl | rfl | hx
    · rintro hc; exact nm (by rw [hc]; simp [isMark])
    · decide
    · rintro rfl; exact fixedDigits_not_mark hx (by simp [isMark])
  obtain ⟨t1, t2⟩ := takeWhile_append_mark (r := (exponentText e).tail) hmark
    (c := 'e') (by simp)
  have he : exponentText e = 'e' :: (exponentText e).tail := rfl
  unfold readUnsigned
  rw [he, t1, t2, List.tail_cons, readSigned_exponent]
  have hp : readPoint (Nat.digitChar (m / 10 ^ prec) :: '.' :: fixedDigits prec (m % 10 ^ prec)) =
      (m : ℚ) / 10 ^ prec := by
    have h1 : ∀ x ∈ [Nat.digitChar (m / 10 ^ prec)], decide (x ≠ '.') = true := by
      intro x hx
      simp only [List.mem_singleton] at hx
      subst hx
      rw [decide_eq_true_eq]
      rintro hc; exact nm (by rw [hc]; simp [isMark])
    obtain ⟨t3, t4⟩ := takeWhile_append_mark (r := fixedDigits prec (m % 10 ^ prec)) h1
      (c := '.') (by simp)
    simp only [List.cons_append, List.nil_append] at t3 t4
    unfold readPoint
    rw [t3, t4]
    simp only [List.tail_cons, length_fixedDigits, List.cons_append, List.nil_append]
    congr 1
    unfold readDigits
    simp only [List.foldl_cons, mul_zero, zero_add]
    rw [foldl_fixedDigits, digitValue_digitChar hd, Nat.mod_mod]
    norm_cast
    exact Nat.div_add_mod' m (10 ^ prec)
  rw [hp, zpow_sub₀ ten, zpow_natCast]
  ring

theorem readNumber_of_not_mark {c : Char} {l : List Char} (h : ¬ isMark c) :
    readNumber (c :: l) = readUnsigned (c :: l) := by
  unfold readNumber
  split
  · next h' => injection h' with h' _; exact absurd (by simp [isMark, h']) h
  · next h' => injection h' with h' _; exact absurd (by simp [isMark, h']) h
  · rfl

theorem readNumber_sign (plus negative : Bool) {c : Char} {l : List Char} (h : ¬ isMark c) :
    readNumber (signText plus negative ++ c :: l) =
      if negative then -readUnsigned (c :: l) else readUnsigned (c :: l) := by
  cases negative <;> cases plus
  · simpa [signText] using readNumber_of_not_mark h
  all_goals simp [signText, readNumber]

/-- Reading a formatted number gives its significant digits. -/
theorem readNumber_formatE (plus : Bool) (prec : ℕ) (q : ℚ) :
    readNumber (formatE plus prec (.fin q)) =
      (if q < 0 then -1 else 1) * (((significant prec |q|).1 : ℚ) *
        10 ^ ((significant prec |q|).2 - prec)) := by
  have hlt : (significant prec |q|).1 < 10 ^ (prec + 1) := by
    by_cases h : q = 0
    · simp [h, significant_zero]
    · exact (significant_spec prec (abs_pos.2 h)).2.1
  have hd : (significant prec |q|).1 / 10 ^ prec < 10 := by
    rw [Nat.div_lt_iff_lt_mul (by positivity)]
    rwa [pow_succ'] at hlt
  have := readUnsigned_digits hlt (significant prec |q|).2
  simp only [formatE, List.append_assoc, List.cons_append] at this ⊢
  rw [readNumber_sign _ _ (digitChar_not_mark hd), this]
  by_cases h : q < 0 <;> simp [h]

theorem readNumber_formatE_zero (plus : Bool) (prec : ℕ) :
    readNumber (formatE plus prec (.fin 0)) = 0 := by
  rw [readNumber_formatE]
  simp [significant_zero]

/-- A formatted number differs from the number by at most half a unit of its last digit. -/
theorem readNumber_error (plus : Bool) (prec : ℕ) {q : ℚ} (hq : q ≠ 0) :
    |readNumber (formatE plus prec (.fin q)) - q| ≤ 10 ^ (Int.log 10 |q| - prec) / 2 := by
  have h := (significant_spec prec (abs_pos.2 hq)).2.2.2
  rw [readNumber_formatE]
  split
  · next h' =>
    rw [abs_of_neg h'] at h ⊢
    rw [← abs_neg]
    refine le_of_eq_of_le ?_ h
    congr 1; ring
  · next h' =>
    rw [abs_of_nonneg (not_lt.1 h')] at h ⊢
    rwa [one_mul]

/-- The relative error of a formatted number. -/
theorem readNumber_relative (plus : Bool) (prec : ℕ) (q : ℚ) :
    |readNumber (formatE plus prec (.fin q)) - q| ≤ |q| / (2 * 10 ^ prec) := by
  by_cases hq : q = 0
  · subst hq; rw [readNumber_formatE_zero]; simp
  refine (readNumber_error plus prec hq).trans ?_
  have h1 : (10 : ℚ) ^ Int.log 10 |q| ≤ |q| := by
    have := Int.zpow_log_le_self (b := 10) (r := |q|) (by norm_num) (abs_pos.2 hq)
    exact_mod_cast this
  rw [zpow_sub₀ (by norm_num), zpow_natCast, div_div, mul_comm]
  exact div_le_div_of_nonneg_right h1 (by positivity)

/-- Reading digits with a point. -/
theorem readUnsigned_point (m prec : ℕ) :
    readUnsigned (natText (m / 10 ^ prec) ++ '.' :: fixedDigits prec (m % 10 ^ prec)) =
      (m : ℚ) / 10 ^ prec := by
  have hne : ∀ x ∈ natText (m / 10 ^ prec) ++ '.' :: fixedDigits prec (m % 10 ^ prec),
      decide (x ≠ 'e') = true := by
    intro x hx
    simp only [List.mem_append, List.mem_cons] at hx
    rw [decide_eq_true_eq]
    rcases hx with hx | rfl | hx
    · rintro rfl; exact natText_not_mark hx (by simp [isMark])
    · decide
    · rintro rfl; exact fixedDigits_not_mark hx (by simp [isMark])
  have hpt : ∀ x ∈ natText (m / 10 ^ prec), decide (x ≠ '.') = true := by
    intro x hx
    rw [decide_eq_true_eq]
    rintro rfl; exact natText_not_mark hx (by simp [isMark])
  obtain ⟨t3, t4⟩ := takeWhile_append_mark (r := fixedDigits prec (m % 10 ^ prec)) hpt
    (c := '.') (by simp)
  unfold readUnsigned
  rw [List.takeWhile_eq_self_iff.2 hne, List.dropWhile_eq_nil_iff.2 hne]
  have h0 : readSigned ([] : List Char).tail = 0 := rfl
  rw [h0, zpow_zero, mul_one]
  unfold readPoint
  rw [t3, t4]
  simp only [List.tail_cons, length_fixedDigits]
  congr 1
  unfold readDigits
  rw [List.foldl_append, foldl_fixedDigits]
  have := readDigits_natText (m / 10 ^ prec)
  unfold readDigits at this
  rw [this, Nat.mod_mod]
  norm_cast
  exact Nat.div_add_mod' m (10 ^ prec)

/-- A number formatted with a fixed number of digits after the point differs from the number by at
most half a unit of the last digit. -/
theorem readNumber_formatF (prec : ℕ) (q : ℚ) :
    |readNumber (formatF prec (.fin q)) - q| ≤ 1 / (2 * 10 ^ prec) := by
  have hp : (0 : ℚ) < 10 ^ prec := by positivity
  have herr := roundEven_error (|q| * 10 ^ prec)
  have h0 : 0 ≤ roundEven (|q| * 10 ^ prec) := le_roundEven (by push_cast; positivity)
  obtain ⟨m, hm⟩ := Int.eq_ofNat_of_zero_le h0
  have h1 : |(m : ℚ) / 10 ^ prec - (|q|)| ≤ 1 / (2 * 10 ^ prec) := by
    rw [hm] at herr
    have : (m : ℚ) / 10 ^ prec - |q| = (((m : ℤ) : ℚ) - |q| * 10 ^ prec) / 10 ^ prec := by
      push_cast; field_simp
    rw [this, abs_div, abs_of_pos hp, div_le_iff₀ hp]
    refine herr.trans (le_of_eq ?_)
    field_simp
  have hread : readNumber (formatF prec (.fin q)) =
      (if q < 0 then -1 else 1) * ((m : ℚ) / 10 ^ prec) := by
    have hne : natText (m / 10 ^ prec) ≠ [] := natText_ne_nil _
    obtain ⟨c, t, hct⟩ := List.exists_cons_of_ne_nil hne
    have hc : ¬ isMark c := natText_not_mark (n := m / 10 ^ prec) (by rw [hct]; simp)
    have hu := readUnsigned_point m prec
    simp only [formatF, hm, Int.toNat_natCast, List.append_assoc]
    rw [hct, List.cons_append] at hu ⊢
    rw [readNumber_sign _ _ hc, hu]
    by_cases h : q < 0 <;> simp [h]
  rw [hread]
  split
  · next h =>
    rw [abs_of_neg h] at h1
    rw [← abs_neg]
    refine le_of_eq_of_le ?_ h1
    congr 1; ring
  · next h =>
    rw [abs_of_nonneg (not_lt.1 h)] at h1
    rwa [one_mul]

/-! ### Binary64 numbers -/

theorem b64_of_near {v : ℚ} {p m : ℤ} (h1 : 2 ^ 52 * (2 : ℚ) ^ p ≤ v)
    (h2 : v < 2 ^ 53 * (2 : ℚ) ^ p) (h3 : |v - m * 2 ^ p| < 2 ^ p / 2) : b64 v = m * 2 ^ p := by
  have hp : (0 : ℚ) < 2 ^ p := by positivity
  have hv : 0 < v := by nlinarith
  have two : (1 : ℚ) < 2 := by norm_num
  obtain ⟨s1, s2⟩ := lastPlace_spec hv.ne'
  rw [abs_of_pos hv] at s1 s2
  have hl : lastPlace v = p := by
    have a1 : (2 : ℚ) ^ lastPlace v < 2 ^ (p + 1) := by
      rw [zpow_add₀ (by norm_num), zpow_one]; linarith
    have a2 : (2 : ℚ) ^ p < 2 ^ (lastPlace v + 1) := by
      rw [zpow_add₀ (by norm_num), zpow_one]; linarith
    have b1 := (zpow_lt_zpow_iff_right₀ two).1 a1
    have b2 := (zpow_lt_zpow_iff_right₀ two).1 a2
    omega
  unfold b64
  rw [if_neg hv.ne', hl]
  congr 2
  have he := roundEven_error (v / 2 ^ p)
  have h4 : |v / 2 ^ p - m| < 1 / 2 := by
    have : v / 2 ^ p - m = (v - m * 2 ^ p) / 2 ^ p := by field_simp
    rw [this, abs_div, abs_of_pos hp, div_lt_iff₀ hp]
    linarith
  have h5 : |((roundEven (v / 2 ^ p) - m : ℤ) : ℚ)| < 1 := by
    push_cast
    have : (roundEven (v / 2 ^ p) : ℚ) - m =
      (roundEven (v / 2 ^ p) - v / 2 ^ p) + (v / 2 ^ p - m) := by ring
    rw [this]
    exact (abs_add_le _ _).trans_lt (by linarith)
  have h6 : |roundEven (v / 2 ^ p) - m| < 1 := by exact_mod_cast h5
  have := abs_lt.1 h6
  omega

/-- A number so close to a positive binary64 number is rounded to it. -/
theorem b64_near_pos {q v : ℚ} (hq : b64 q = q) (hpos : 0 < q) (h : |v - q| * 2 ^ 54 < q) :
    b64 v = q := by
  obtain ⟨s1, s2⟩ := lastPlace_spec hpos.ne'
  rw [abs_of_pos hpos] at s1 s2
  unfold b64 at hq
  rw [if_neg hpos.ne'] at hq
  set p := lastPlace q
  set m := roundEven (q / 2 ^ p)
  have hp : (0 : ℚ) < 2 ^ p := by positivity
  have m1 : (2 : ℚ) ^ 52 ≤ m := by
    rw [← hq] at s1; exact le_of_mul_le_mul_right s1 hp
  have m2 : (m : ℚ) < 2 ^ 53 := by
    rw [← hq] at s2; exact lt_of_mul_lt_mul_right s2 hp.le
  have m1' : 2 ^ 52 ≤ m := by exact_mod_cast m1
  have m2' : m + 1 ≤ 2 ^ 53 := by
    have : m < 2 ^ 53 := by exact_mod_cast m2
    omega
  have m2'' : (m : ℚ) + 1 ≤ 2 ^ 53 := by exact_mod_cast m2'
  have hδ : |v - q| < 2 ^ p / 2 := by
    have : |v - q| * 2 ^ 54 < 2 ^ 53 * 2 ^ p := h.trans s2
    linarith
  have hδ' := abs_lt.1 hδ
  rcases m1'.eq_or_lt with hm | hm
  · -- a power of two: below it the numbers are twice as dense
    have hq' : q = 2 ^ 52 * 2 ^ p := by rw [← hq, ← hm]; push_cast; ring
    rcases le_or_gt q v with hv | hv
    · rw [← hq]
      refine b64_of_near (by linarith) ?_ (by rw [hq]; exact hδ)
      have : (2 : ℚ) ^ 52 * 2 ^ p + 2 ^ p / 2 < 2 ^ 53 * 2 ^ p := by nlinarith
      linarith
    · have hδ4 : |v - q| < 2 ^ p / 4 := by
        have : |v - q| * 2 ^ 54 < 2 ^ 52 * 2 ^ p := by rw [← hq']; exact h
        linarith
      have hhalf : (2 : ℚ) ^ p = 2 * 2 ^ (p - 1) := by
        rw [zpow_sub₀ (by norm_num), zpow_one]; ring
      have hqq : q = ((2 ^ 53 : ℤ) : ℚ) * 2 ^ (p - 1) := by
        rw [hq', hhalf]; push_cast; ring
      have hp1 : (0 : ℚ) < 2 ^ (p - 1) := by positivity
      have a4 := abs_lt.1 hδ4
      rw [hqq]
      refine b64_of_near ?_ ?_ ?_
      · rw [hhalf] at a4 hq'
        nlinarith
      · rw [hhalf] at hq'
        linarith
      · rw [← hqq]
        rw [hhalf] at hδ4
        linarith
  · have m3 : (2 : ℚ) ^ 52 + 1 ≤ m := by
      have : 2 ^ 52 + 1 ≤ m := by omega
      exact_mod_cast this
    have e1 : ((2 : ℚ) ^ 52 + 1) * 2 ^ p ≤ q := by
      rw [← hq]; exact mul_le_mul_of_nonneg_right m3 hp.le
    have e2 : q + 2 ^ p ≤ 2 ^ 53 * 2 ^ p := by
      rw [← hq]
      have := mul_le_mul_of_nonneg_right m2'' hp.le
      linarith
    rw [← hq]
    refine b64_of_near (by linarith) (by linarith) (by rw [hq]; exact hδ)

/-- A number so close to a binary64 number is rounded to it. -/
theorem b64_near {q v : ℚ} (hq : b64 q = q) (h0 : q ≠ 0) (h : |v - q| * 2 ^ 54 < |q|) :
    b64 v = q := by
  rcases lt_or_gt_of_ne h0 with hn | hp
  · have h1 : b64 (-v) = -q := by
      refine b64_near_pos (by rw [b64_neg, hq]) (by linarith) ?_
      rw [abs_of_neg hn] at h
      rw [← abs_neg]
      refine lt_of_eq_of_lt ?_ h
      congr 2; ring
    rw [b64_neg] at h1
    linarith
  · rw [abs_of_pos hp] at h
    exact b64_near_pos hq hp h

/-! ### Lengths -/

/-- The range of binary64: zero, or from the least subnormal number to the greatest one. -/
def InRange (q : ℚ) : Prop := q = 0 ∨ (1 / 2 ^ 1074 ≤ |q| ∧ |q| < 2 ^ 1024)

instance (q : ℚ) : Decidable (InRange q) := by unfold InRange; infer_instance

theorem significant_exponent (prec : ℕ) {q : ℚ} (h : InRange q) :
    (significant prec |q|).2.natAbs < 1000 := by
  rcases h with rfl | ⟨h1, h2⟩
  · simp [significant_zero]
  have hq : 0 < |q| := lt_of_lt_of_le (by positivity) h1
  have l1 : (10 : ℚ) ^ Int.log 10 |q| ≤ |q| := by
    have := Int.zpow_log_le_self (b := 10) (r := |q|) (by norm_num) hq
    exact_mod_cast this
  have l2 : |q| < (10 : ℚ) ^ (Int.log 10 |q| + 1) := by
    have := Int.lt_zpow_succ_log_self (b := 10) (by norm_num) |q|
    exact_mod_cast this
  have ten : (1 : ℚ) < 10 := by norm_num
  have u : Int.log 10 |q| < 309 := by
    refine (zpow_lt_zpow_iff_right₀ ten).1 (l1.trans_lt (h2.trans_le ?_))
    have : 2 ^ 1024 ≤ 10 ^ 309 := by decide +kernel
    exact_mod_cast this
  have l : -325 < Int.log 10 |q| + 1 := by
    refine (zpow_lt_zpow_iff_right₀ ten).1 (lt_of_le_of_lt ?_ (h1.trans_lt l2))
    have : 2 ^ 1074 ≤ 10 ^ 325 := by decide +kernel
    have h3 : (2 : ℚ) ^ 1074 ≤ 10 ^ 325 := by exact_mod_cast this
    rw [zpow_neg, one_div]
    exact inv_anti₀ (by positivity) (by exact_mod_cast h3)
  rcases (significant_spec prec hq).2.2.1 with h | h <;> omega

theorem length_exponentText {e : ℤ} (h : e.natAbs < 1000) :
    4 ≤ (exponentText e).length ∧ (exponentText e).length ≤ 5 := by
  have : Nat.log 10 e.natAbs < 3 := by
    rcases Nat.eq_zero_or_pos e.natAbs with h0 | h0
    · simp [h0]
    · exact Nat.log_lt_of_lt_pow h0.ne' (by norm_num; exact h)
  simp only [exponentText, List.length_cons, length_fixedDigits]
  omega

/-- Is this a value of a binary64 number? -/
def InRangeX : XF ℚ → Prop
  | .fin q => InRange q
  | _ => True

instance : (v : XF ℚ) → Decidable (InRangeX v)
  | .nan => isTrue trivial
  | .pinf => isTrue trivial
  | .ninf => isTrue trivial
  | .fin q => inferInstanceAs (Decidable (InRange q))

theorem length_formatE (plus : Bool) (prec : ℕ) {v : XF ℚ} (h : InRangeX v) :
    (formatE plus prec v).length ≤ prec + 8 := by
  cases v with
  | nan => cases plus <;> simp [formatE, signText]
  | pinf => cases plus <;> simp [formatE, signText]
  | ninf => simp [formatE, signText]
  | fin q =>
    have h1 := length_exponentText (significant_exponent prec h)
    have h2 : (signText plus (decide (q < 0))).length ≤ 1 := by
      unfold signText; split_ifs <;> simp
    simp only [formatE, List.length_append, List.length_cons, length_fixedDigits]
    omega

theorem length_formatE_unsigned (prec : ℕ) {v : XF ℚ} (h : InRangeX v)
    (hv : ∀ q, v = .fin q → 0 ≤ q) : (formatE false prec v).length ≤ prec + 7 := by
  cases v with
  | nan => simp [formatE, signText]
  | pinf => simp [formatE, signText]
  | ninf => simp [formatE, signText]
  | fin q =>
    have h1 := length_exponentText (significant_exponent prec h)
    have hq : ¬ q < 0 := not_lt.2 (hv q rfl)
    simp only [formatE, signText, hq, decide_false, Bool.false_eq_true, if_false, List.nil_append,
      List.length_append, List.length_cons, length_fixedDigits]
    omega

end Verif
