/-
Lemmas about the format code `g`.
-/
import Verif.Base.FormatLemmas

namespace Verif

theorem stripZeros_zero (l : List Char) : stripZeros (l ++ ['0']) = stripZeros l := by
  simp [stripZeros]

theorem stripZeros_other {l : List Char} {c : Char} (h0 : c ≠ '0') (h1 : c ≠ '.') :
    stripZeros (l ++ [c]) = l ++ [c] := by
  simp [stripZeros, h0, h1]

theorem stripZeros_point (l : List Char) : stripZeros (l ++ ['.']) = l := by
  simp [stripZeros]

theorem readPoint_eq {a f : List Char} (ha : '.' ∉ a) :
    readPoint (a ++ '.' :: f) = (readDigits (a ++ f) : ℚ) / 10 ^ f.length := by
  have h : ∀ x ∈ a, decide (x ≠ '.') = true := by
    intro x hx
    rw [decide_eq_true_eq]
    rintro rfl
    exact ha hx
  obtain ⟨t1, t2⟩ := takeWhile_append_mark (r := f) h (c := '.') (by simp)
  unfold readPoint
  rw [t1, t2]
  rfl

theorem readPoint_integer {a : List Char} (ha : '.' ∉ a) : readPoint a = readDigits a := by
  have h : ∀ x ∈ a, decide (x ≠ '.') = true := by
    intro x hx
    rw [decide_eq_true_eq]
    rintro rfl
    exact ha hx
  unfold readPoint
  rw [List.takeWhile_eq_self_iff.2 h, List.dropWhile_eq_nil_iff.2 h]
  simp

/-- Removing the zeros at the end of digits with a point does not change the number. -/
theorem stripZeros_spec {a : List Char} (ha : '.' ∉ a) (f : List Char) (hf : '.' ∉ f) :
    ∃ t, stripZeros (a ++ '.' :: f) = a ++ t ∧ (∀ c ∈ t, c = '.' ∨ c ∈ f) ∧
      readPoint (a ++ t) = (readDigits (a ++ f) : ℚ) / 10 ^ f.length := by
  induction f using List.reverseRecOn with
  | nil => exact ⟨[], by simpa using stripZeros_point a, by simp, by simp [readPoint_integer ha]⟩
  | append_singleton f c ih =>
    have hf' : '.' ∉ f := fun h => hf (by simp [h])
    have hc : c ≠ '.' := fun h => hf (by simp [h])
    have e : a ++ '.' :: (f ++ [c]) = (a ++ '.' :: f) ++ [c] := by simp
    by_cases h0 : c = '0'
    · obtain ⟨t, h1, h2, h3⟩ := ih hf'
      subst h0
      refine ⟨t, by rw [e, stripZeros_zero, h1], fun c hc => ?_, ?_⟩
      · rcases h2 c hc with h | h
        · exact .inl h
        · exact .inr (by simp [h])
      · rw [h3]
        have hd : readDigits (a ++ (f ++ ['0'])) = 10 * readDigits (a ++ f) := by
          rw [← List.append_assoc]
          unfold readDigits
          rw [List.foldl_append]
          rfl
        rw [hd, List.length_append, List.length_singleton, pow_succ]
        push_cast
        field_simp
    · refine ⟨'.' :: (f ++ [c]), ?_, fun x hx => ?_, readPoint_eq ha⟩
      · rw [e, stripZeros_other h0 hc]
      · rcases List.mem_cons.1 hx with h | h
        · exact .inl h
        · exact .inr h

theorem readUnsigned_plain {l : List Char} (h : 'e' ∉ l) : readUnsigned l = readPoint l := by
  have h' : ∀ x ∈ l, decide (x ≠ 'e') = true := by
    intro x hx
    rw [decide_eq_true_eq]
    rintro rfl
    exact h hx
  unfold readUnsigned
  rw [List.takeWhile_eq_self_iff.2 h', List.dropWhile_eq_nil_iff.2 h']
  have h0 : readSigned ([] : List Char).tail = 0 := rfl
  rw [h0, zpow_zero, mul_one]

theorem readUnsigned_exponent {l : List Char} (h : 'e' ∉ l) (e : ℤ) :
    readUnsigned (l ++ exponentText e) = readPoint l * 10 ^ e := by
  have h' : ∀ x ∈ l, decide (x ≠ 'e') = true := by
    intro x hx
    rw [decide_eq_true_eq]
    rintro rfl
    exact h hx
  have hx := readSigned_exponent e
  unfold exponentText at hx ⊢
  obtain ⟨t1, t2⟩ := takeWhile_append_mark h' (c := 'e') (r := (if e < 0 then '-' else '+') ::
    fixedDigits (max 2 (Nat.log 10 e.natAbs + 1)) e.natAbs) (by simp)
  unfold readUnsigned
  rw [t1, t2, hx]

theorem readDigits_append (a : List Char) (w n : ℕ) :
    readDigits (a ++ fixedDigits w n) = readDigits a * 10 ^ w + n % 10 ^ w := by
  unfold readDigits
  rw [List.foldl_append, foldl_fixedDigits]

/-- The code `g` prints the number that `.5e` prints. -/
theorem readNumber_formatG (q : ℚ) :
    readNumber (formatG (.fin q)) = readNumber (formatE false 5 (.fin q)) := by
  rw [readNumber_formatE]
  have ten : (10 : ℚ) ≠ 0 := by norm_num
  have hlt : (significant 5 |q|).1 < 10 ^ (5 + 1) := by
    by_cases hq : q = 0
    · subst hq; simp [significant_zero]
    · exact (significant_spec 5 (abs_pos.2 hq)).2.1
  have mark : ∀ {l : List Char}, (∀ c ∈ l, ¬ isMark c) → '.' ∉ l ∧ 'e' ∉ l := fun h =>
    ⟨fun hm => h _ hm (by simp [isMark]), fun hm => h _ hm (by simp [isMark])⟩
  unfold formatG
  simp only
  generalize hd : significant 5 |q| = d at hlt
  split
  · next hc =>
    set k := (5 - d.2).toNat with hk
    obtain ⟨m1, m2⟩ := mark fun c hc => natText_not_mark (n := d.1 / 10 ^ k) hc
    obtain ⟨m3, m4⟩ := mark fun c hc => fixedDigits_not_mark (w := k) (n := d.1 % 10 ^ k) hc
    obtain ⟨t, h1, h2, h3⟩ := stripZeros_spec m1 _ m3
    rw [h1]
    obtain ⟨c, l, hcl⟩ := List.exists_cons_of_ne_nil (natText_ne_nil (d.1 / 10 ^ k))
    have hm : ¬ isMark c := natText_not_mark (n := d.1 / 10 ^ k) (by rw [hcl]; simp)
    have he : 'e' ∉ natText (d.1 / 10 ^ k) ++ t := by
      simp only [List.mem_append, not_or]
      refine ⟨m2, fun h => ?_⟩
      rcases h2 _ h with h | h
      · exact absurd h (by decide)
      · exact m4 h
    have hval : readUnsigned (natText (d.1 / 10 ^ k) ++ t) = (d.1 : ℚ) * 10 ^ (d.2 - (5 : ℕ)) := by
      rw [readUnsigned_plain he, h3, readDigits_append, readDigits_natText, Nat.mod_mod,
        Nat.div_add_mod', length_fixedDigits, div_eq_mul_inv, ← zpow_natCast, ← zpow_neg]
      congr 2
      omega
    rw [hcl, List.cons_append] at hval ⊢
    rw [readNumber_sign _ _ hm, hval]
    by_cases hq : q < 0 <;> simp [hq]
  · have hdig : d.1 / 10 ^ 5 < 10 := by
      rw [Nat.div_lt_iff_lt_mul (by positivity)]
      omega
    have hm : ¬ isMark (Nat.digitChar (d.1 / 10 ^ 5)) := digitChar_not_mark hdig
    obtain ⟨m1, m2⟩ := mark (l := [Nat.digitChar (d.1 / 10 ^ 5)]) (by
      intro c hc; rw [List.mem_singleton.1 hc]; exact hm)
    obtain ⟨m3, m4⟩ := mark fun c hc => fixedDigits_not_mark (w := 5) (n := d.1 % 10 ^ 5) hc
    obtain ⟨t, h1, h2, h3⟩ := stripZeros_spec m1 _ m3
    have he : 'e' ∉ [Nat.digitChar (d.1 / 10 ^ 5)] ++ t := by
      simp only [List.mem_append, not_or]
      refine ⟨m2, fun h => ?_⟩
      rcases h2 _ h with h | h
      · exact absurd h (by decide)
      · exact m4 h
    have hval : readUnsigned (([Nat.digitChar (d.1 / 10 ^ 5)] ++ t) ++ exponentText d.2) =
        (d.1 : ℚ) * 10 ^ (d.2 - (5 : ℕ)) := by
      have hr : readDigits [Nat.digitChar (d.1 / 10 ^ 5)] = d.1 / 10 ^ 5 := by
        change 10 * 0 + digitValue (Nat.digitChar (d.1 / 10 ^ 5)) = _
        rw [digitValue_digitChar hdig, mul_zero, zero_add]
      rw [readUnsigned_exponent he, h3, readDigits_append, hr, Nat.mod_mod,
        Nat.div_add_mod', length_fixedDigits, zpow_sub₀ ten, zpow_natCast]
      ring
    rw [List.singleton_append] at h1
    rw [h1]
    rw [List.singleton_append, List.cons_append] at hval ⊢
    rw [readNumber_sign _ _ hm, hval]
    by_cases hq : q < 0 <;> simp [hq]

theorem readNumber_formatG_relative (q : ℚ) :
    |readNumber (formatG (.fin q)) - q| ≤ |q| / (2 * 10 ^ 5) := by
  rw [readNumber_formatG]
  exact readNumber_relative false 5 q

theorem exponentText_no_space (e : ℤ) : ' ' ∉ exponentText e := by
  unfold exponentText
  simp only [List.mem_cons, not_or]
  refine ⟨by decide, by split <;> decide, fun h => fixedDigits_not_mark h (by simp [isMark])⟩

theorem formatG_no_space (v : XF ℚ) : ' ' ∉ formatG v := by
  have sign : ∀ b, ' ' ∉ signText false b := by decide
  cases v with
  | nan => decide
  | pinf => decide
  | ninf => decide
  | fin q =>
    have hlt : (significant 5 |q|).1 < 10 ^ (5 + 1) := by
      by_cases hq : q = 0
      · subst hq; simp [significant_zero]
      · exact (significant_spec 5 (abs_pos.2 hq)).2.1
    unfold formatG
    simp only
    generalize significant 5 |q| = d at hlt
    rw [List.mem_append, not_or]
    refine ⟨sign _, ?_⟩
    have key : ∀ {a f : List Char}, (∀ c ∈ a, ¬ isMark c) → (∀ c ∈ f, ¬ isMark c) →
        ' ' ∉ stripZeros (a ++ '.' :: f) := by
      intro a f ha hf
      obtain ⟨t, h1, h2, -⟩ := stripZeros_spec (fun hm => ha _ hm (by simp [isMark])) f
        (fun hm => hf _ hm (by simp [isMark]))
      rw [h1, List.mem_append, not_or]
      refine ⟨fun h => ha _ h (by simp [isMark]), fun h => ?_⟩
      rcases h2 _ h with h | h
      · exact absurd h (by decide)
      · exact hf _ h (by simp [isMark])
    split
    · exact key (fun c hc => natText_not_mark hc) (fun c hc => fixedDigits_not_mark hc)
    · rw [List.mem_append, not_or]
      refine ⟨key (a := [Nat.digitChar (d.1 / 10 ^ 5)]) (fun c hc => ?_)
        (fun c hc => fixedDigits_not_mark hc), exponentText_no_space _⟩
      rw [List.mem_singleton.1 hc]
      refine digitChar_not_mark ?_
      rw [Nat.div_lt_iff_lt_mul (by positivity)]
      omega

theorem formatG_zero : formatG (.fin 0) = ['0'] := by decide +kernel

theorem formatG_eq_zero {v : XF ℚ} : formatG v = ['0'] ↔ v = .fin 0 := by
  refine ⟨fun h => ?_, fun h => by rw [h, formatG_zero]⟩
  cases v with
  | nan => simp [formatG] at h
  | pinf => simp [formatG] at h
  | ninf => simp [formatG] at h
  | fin q =>
    have h1 := readNumber_formatG_relative q
    have h2 : readNumber ['0'] = 0 := by decide +kernel
    rw [h, h2, zero_sub, abs_neg] at h1
    have h3 : |q| ≤ 0 := by
      by_contra hc
      push Not at hc
      rw [le_div_iff₀ (by positivity)] at h1
      nlinarith
    rw [abs_nonpos_iff.1 h3]

/-- What comes after the last space of a list. -/
theorem last_word {a b l m : List Char} (h : l ++ ' ' :: a = m ++ ' ' :: b) (ha : ' ' ∉ a)
    (hb : ' ' ∉ b) : a = b := by
  have key : ∀ {l a : List Char}, ' ' ∉ a →
      (l ++ ' ' :: a).reverse.takeWhile (fun c => decide (c ≠ ' ')) = a.reverse := by
    intro l a ha
    have h' : ∀ x ∈ a.reverse, decide (x ≠ ' ') = true := by
      intro x hx
      rw [decide_eq_true_eq]
      rintro rfl
      exact ha (List.mem_reverse.1 hx)
    have := (takeWhile_append_mark (r := l.reverse) h' (c := ' ') (by simp)).1
    simpa using this
  have h1 := key (l := l) ha
  rw [h, key hb] at h1
  exact (List.reverse_injective h1).symm

end Verif
