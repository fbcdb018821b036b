/-
C161: which backends can be used, and that they see the numbers of the arrays they are given.
-/
import Verif.Core.Model.Backends
import Verif.Core.Props.Autodiff
import Verif.Base.FormatLemmas
import Mathlib.Tactic.IntervalCases
import Mathlib.Tactic.Linarith

namespace Verif.Core
open Verif

/-! ## Specification -/

/-- The text of version `a.b.c`, possibly with something behind it (`+cu117`, `.post2`). -/
def versionText (a b c : ℕ) (suffix : List Char) : List Char :=
  natText a ++ '.' :: (natText b ++ '.' :: (natText c ++ suffix))

/-- The first decimal digit. -/
def firstDigit (n : ℕ) : ℕ := n / 10 ^ Nat.log 10 n

/-- Indices of an array of a given shape. -/
def InShape (shape idx : List ℕ) : Prop := List.Forall₂ (fun n i => i < n) shape idx

/-- The array is in memory that is in use. -/
def Memory.Has {K : Type*} (m : Memory K) (a : Strided) : Prop := a.buffer < m.next

/-! ## Lemmas -/

theorem fixedDigits_head (w n : ℕ) :
    fixedDigits (w + 1) n = Nat.digitChar (n / 10 ^ w % 10) :: fixedDigits w n := by
  induction w generalizing n with
  | zero => simp [fixedDigits]
  | succ w ih =>
    rw [fixedDigits, ih, Nat.div_div_eq_div_mul, ← pow_succ']
    rfl

theorem firstDigit_lt (n : ℕ) : firstDigit n < 10 := by
  unfold firstDigit
  rw [Nat.div_lt_iff_lt_mul (by positivity), ← pow_succ']
  exact Nat.lt_pow_succ_log_self (by norm_num) n

theorem firstDigit_pos {n : ℕ} (h : 0 < n) : 0 < firstDigit n :=
  Nat.div_pos (Nat.pow_log_le_self 10 h.ne') (by positivity)

theorem natText_head (n : ℕ) : natText n =
    Nat.digitChar (firstDigit n) :: fixedDigits (Nat.log 10 n) n := by
  have h := firstDigit_lt n
  rw [natText, fixedDigits_head]
  unfold firstDigit at h ⊢
  rw [Nat.mod_eq_of_lt h]

theorem toNat_digitChar {d : ℕ} (h : d < 10) : (Nat.digitChar d).toNat = 48 + d := by
  interval_cases d <;> rfl

theorem natText_small {n : ℕ} (h : n < 10) : natText n = [Nat.digitChar n] := by
  have h0 : Nat.log 10 n = 0 := Nat.log_of_lt h
  rw [natText_head, firstDigit, h0]
  simp [fixedDigits]

theorem firstDigit_small {n : ℕ} (h : n < 10) : firstDigit n = n := by
  rw [firstDigit, Nat.log_of_lt h]
  simp

theorem natText_large {n : ℕ} (h : 10 ≤ n) : ∃ d < 10, ∃ l,
    natText n = Nat.digitChar (firstDigit n) :: Nat.digitChar d :: l := by
  obtain ⟨k, hk⟩ := Nat.exists_eq_succ_of_ne_zero (Nat.log_pos (b := 10) (by norm_num) h).ne'
  refine ⟨n / 10 ^ k % 10, Nat.mod_lt _ (by norm_num), fixedDigits k n, ?_⟩
  rw [natText_head, hk, fixedDigits_head]

theorem strLe_cons (a b : Char) (l m : List Char) : strLe (a :: l) (b :: m) = true ↔
    a.toNat < b.toNat ∨ a.toNat = b.toNat ∧ strLe l m = true := by
  rw [strLe]
  split
  · rename_i h
    simp [h]
  · split
    · rename_i h1 h2
      simp only [Bool.false_eq_true, false_iff]
      omega
    · rename_i h1 h2
      have : a.toNat = b.toNat := by omega
      simp [this]

theorem strLe_digit (a : Char) (k : ℕ) (hk : a.toNat = 48 + k) (l : List Char) (n : ℕ)
    (r : List Char) : strLe (a :: l) (natText n ++ r) = true ↔
      k < firstDigit n ∨ k = firstDigit n ∧ strLe l (fixedDigits (Nat.log 10 n) n ++ r) = true := by
  rw [natText_head, List.cons_append, strLe_cons, toNat_digitChar (firstDigit_lt n), hk]
  constructor
  · rintro (h | ⟨h, h2⟩)
    · exact .inl (by omega)
    · exact .inr ⟨by omega, h2⟩
  · rintro (h | ⟨h, h2⟩)
    · exact .inl (by omega)
    · exact .inr ⟨by omega, h2⟩

theorem firstDigit_eq_zero {n : ℕ} : firstDigit n = 0 ↔ n = 0 := by
  constructor
  · intro h
    by_contra hn
    exact (firstDigit_pos (Nat.pos_of_ne_zero hn)).ne' h
  · rintro rfl
    rfl

/-! ## C161: availability -/

/-- **C161**: for which versions of PyTorch the backend is available.  The versions are compared as
texts: major version at least 1, or 0 and a minor version that starts with a digit above 4, or 4 and
patch level at least 1, or a minor version of several digits that starts with 4. -/
theorem C161_version (env : Installed) {a b c : ℕ} {suffix : List Char}
    (h : env.torch = some (versionText a b c suffix)) :
    isAvailable env .pytorch = true ↔
      1 ≤ a ∨ 4 < firstDigit b ∨ (b = 4 ∧ 1 ≤ c) ∨ (firstDigit b = 4 ∧ 10 ≤ b) := by
  simp only [isAvailable, h]
  change strLe ['0', '.', '4', '.', '1'] (versionText a b c suffix) = true ↔ _
  unfold versionText
  rw [strLe_digit '0' 0 rfl]
  by_cases ha : 1 ≤ a
  · simp only [ha, true_or, iff_true]
    exact .inl (firstDigit_pos ha)
  · obtain rfl : a = 0 := by omega
    have h0 : firstDigit 0 = 0 := rfl
    have hl : fixedDigits (Nat.log 10 0) 0 = [] := by simp [fixedDigits]
    rw [h0, hl, List.nil_append, strLe_cons, strLe_digit '4' 4 rfl]
    simp only [lt_irrefl, false_or, true_and, ha]
    apply or_congr_right
    by_cases hb : 10 ≤ b
    · obtain ⟨d, hd, l, hl⟩ := natText_large hb
      rw [natText_head] at hl
      have hl := (List.cons.inj hl).2
      rw [hl, List.cons_append, strLe_cons, toNat_digitChar hd]
      have h46 : ('.' : Char).toNat = 46 := rfl
      rw [h46]
      constructor
      · rintro ⟨h, -⟩
        exact .inr ⟨h.symm, hb⟩
      · rintro (⟨h, -⟩ | ⟨h, -⟩)
        · omega
        · exact ⟨h.symm, .inl (by omega)⟩
    · have hb' : b < 10 := by omega
      rw [firstDigit_small hb', Nat.log_of_lt hb', fixedDigits, List.nil_append, strLe_cons,
        strLe_digit '1' 1 rfl]
      simp only [lt_irrefl, false_or, true_and, strLe, and_true, hb, and_false, or_false]
      have : 1 < firstDigit c ∨ 1 = firstDigit c ↔ 1 ≤ c := by
        have := @firstDigit_eq_zero c
        omega
      rw [this, eq_comm]

/-- **C161** (partial: minor versions with several digits are not covered if the major version is
0, see `C161_negation`; there are no such versions of PyTorch): the PyTorch backend is available
exactly if PyTorch 0.4.1 or later is installed. -/
theorem C161_version_partial (env : Installed) {a b c : ℕ} {suffix : List Char}
    (h : env.torch = some (versionText a b c suffix)) (hb : 1 ≤ a ∨ b < 10) :
    isAvailable env .pytorch = true ↔
      toLex (0, toLex (4, 1)) ≤ (toLex (a, toLex (b, c)) : ℕ ×ₗ ℕ ×ₗ ℕ) := by
  rw [C161_version env h]
  simp only [Prod.Lex.toLex_le_toLex]
  rcases hb with hb | hb
  · simp only [hb, true_or, true_iff]
    exact .inl hb
  · rw [firstDigit_small hb]
    omega

/-- The test is wrong for a version 0.10.0. -/
theorem C161_negation (env : Installed) (h : env.torch = some (versionText 0 10 0 [])) :
    isAvailable env .pytorch = false ∧
      toLex (0, toLex (4, 1)) ≤ (toLex (0, toLex (10, 0)) : ℕ ×ₗ ℕ ×ₗ ℕ) := by
  constructor
  · rw [← Bool.not_eq_true, C161_version env h]
    have : firstDigit 10 = 1 := by decide +kernel
    omega
  · simp [Prod.Lex.toLex_le_toLex]

/-- **C161**: a function with a proper signature can be decorated with exactly the backends that are
available, the others raise `RuntimeError`; NumPy always is available, the others only if they are
installed.  Once a function is decorated, no method of its backend raises for lack of the
library. -/
theorem C161_available (env : Installed) (b : BackendName) (spec : ArgSpec)
    (hs : decorate true true true spec = .ok ()) :
    (decorate true true (isAvailable env b) spec = .ok () ↔ isAvailable env b = true) ∧
    (isAvailable env b = false → decorate true true (isAvailable env b) spec = .error .runtime) ∧
    isAvailable env .numpy = true ∧
    (env.torch = none → isAvailable env .pytorch = false) ∧
    (env.jax = isAvailable env .jax) ∧ (env.tensorflow = isAvailable env .tensorflow) ∧
    (env.autograd = isAvailable env .autograd) ∧
    (decorate true true (isAvailable env b) spec = .ok () → b ≠ .numpy →
      ∀ {R : Type} (generated : Except PyErr R), generateOperator env b generated = generated) ∧
    (∀ {R : Type} (generated : Except PyErr R),
      generateOperator env .numpy generated = .error .notImplemented) := by
  have hd : ∀ av, decorate true true av spec = if av then .ok () else .error .runtime := by
    intro av
    unfold decorate at hs ⊢
    simp only [Bool.not_true, Bool.false_eq_true, if_false] at hs ⊢
    split
    · rename_i h
      rw [if_pos h] at hs
      cases hs
    · cases av <;> rfl
  refine ⟨?_, ?_, rfl, fun h => by simp [isAvailable, h], rfl, rfl, rfl, ?_, fun _ => rfl⟩
  · rw [hd]
    cases isAvailable env b <;> simp
  · intro h
    rw [hd, h]
    rfl
  · intro h hb R generated
    have h : isAvailable env b = true := by
      rw [hd] at h
      by_contra h2
      rw [if_neg h2] at h
      cases h
    cases b <;> first | exact absurd rfl hb | simp [generateOperator, assertAvailable, h]

/-! ## C161: arrays -/

section
variable {K : Type*}

theorem rowMajor_nonneg (shape : List ℕ) : (rowMajor shape).any (· < 0) = false := by
  induction shape with
  | nil => rfl
  | cons n ns ih =>
    rw [rowMajor, List.any_cons, ih, Bool.or_false, decide_eq_false_iff_not, not_lt]
    exact Int.natCast_nonneg _

theorem InShape.position_bound {shape idx : List ℕ} (h : InShape shape idx) :
    0 ≤ position (rowMajor shape) idx ∧ position (rowMajor shape) idx < shape.prod ∧
      unravel shape (position (rowMajor shape) idx).toNat = idx := by
  induction h with
  | nil => simp [position, rowMajor, unravel]
  | @cons n i ns is hi _ ih =>
    obtain ⟨h1, h2, h3⟩ := ih
    have hp : position (rowMajor (n :: ns)) (i :: is) =
        i * (ns.prod : ℤ) + position (rowMajor ns) is := rfl
    obtain ⟨q, hq⟩ := Int.eq_ofNat_of_zero_le h1
    have hq2 : q < ns.prod := by rw [hq] at h2; exact_mod_cast h2
    have hpos : 0 < ns.prod := by omega
    have hnat : position (rowMajor (n :: ns)) (i :: is) = ((q + i * ns.prod : ℕ) : ℤ) := by
      rw [hp, hq]
      push_cast
      ring
    rw [hnat]
    refine ⟨by positivity, ?_, ?_⟩
    · rw [List.prod_cons]
      have : (i + 1) * ns.prod ≤ n * ns.prod := Nat.mul_le_mul_right _ hi
      have : q + i * ns.prod < n * ns.prod := by linarith [add_one_mul i ns.prod]
      exact_mod_cast this
    · rw [Int.toNat_natCast, unravel, Nat.add_mul_div_right _ _ hpos, Nat.add_mul_mod_self_right,
        Nat.mod_eq_of_lt hq2, Nat.div_eq_of_lt hq2, zero_add]
      rw [hq, Int.toNat_natCast] at h3
      rw [h3]

theorem unravel_inShape {shape : List ℕ} {k : ℕ} (h : k < shape.prod) :
    InShape shape (unravel shape k) := by
  induction shape generalizing k with
  | nil => exact .nil
  | cons n ns ih =>
    rw [List.prod_cons] at h
    have hpos : 0 < ns.prod := Nat.pos_of_ne_zero fun h0 => by simp [h0] at h
    exact .cons ((Nat.div_lt_iff_lt_mul hpos).2 h) (ih (Nat.mod_lt _ hpos))

theorem copy_read (m : Memory K) (a : Strided) {idx : List ℕ} (h : InShape a.shape idx) :
    (m.copy a).2.read (m.copy a).1 idx = m.read a idx := by
  simp [Memory.copy, Memory.read, h.position_bound.2.2]

theorem copy_others (m : Memory K) (a : Strided) {b : Strided} (h : m.Has b) (idx : List ℕ) :
    (m.copy a).2.read b idx = m.read b idx := by
  have : b.buffer ≠ m.next := h.ne
  simp [Memory.copy, Memory.read, this]

/-- **C161**: PyTorch gets every array, whatever its strides, with the same shape and elements; no
other array changes.  It works on the memory of the array itself unless a stride is negative; then,
and only then, there is a warning and a copy. -/
theorem C161_fromNumpy (m : Memory K) (a : Strided) (ha : m.Has a) :
    ∃ t m' w, pytorchFromNumpy m a = .ok (t, m', w) ∧ t.shape = a.shape ∧
      (∀ idx, InShape a.shape idx → m'.read t idx = m.read a idx) ∧
      (∀ b, m.Has b → m'.Has b ∧ ∀ idx, m'.read b idx = m.read b idx) ∧ m'.Has t ∧
      (w = true ↔ ∃ s ∈ a.strides, s < 0) ∧ (t.buffer = a.buffer ↔ w = false) := by
  unfold pytorchFromNumpy
  by_cases h : a.strides.any (· < 0) = true
  · have hc : torchFromNumpy (m.copy a).1 = .ok (m.copy a).1 := by
      simp only [torchFromNumpy]
      rw [if_neg]
      rw [Bool.not_eq_true]
      exact rowMajor_nonneg a.shape
    rw [if_pos h, hc]
    refine ⟨_, _, _, rfl, rfl, fun _ hi => copy_read m a hi, fun b hb =>
      ⟨Nat.lt_succ_of_lt hb, copy_others m a hb⟩, Nat.lt_succ_self _, ?_, ?_⟩
    · simpa using h
    · have : a.buffer ≠ m.next := ha.ne
      simp only [Bool.true_eq_false, iff_false]
      exact fun e => this e.symm
  · rw [if_neg h, torchFromNumpy, if_neg h]
    refine ⟨_, _, _, rfl, rfl, fun _ _ => rfl, fun b hb => ⟨hb, fun _ => rfl⟩, ha, ?_, ?_⟩
    · simpa using h
    · simp

/-- **C161**: a function that modifies its argument in place with PyTorch modifies the array of the
caller, unless a stride of it is negative. -/
theorem C161_inPlace (m : Memory K) (a : Strided) (ha : m.Has a) {t : Strided} {m' : Memory K}
    {w : Bool} (h : pytorchFromNumpy m a = .ok (t, m', w)) (idx : List ℕ) (v : K) :
    ((∀ s ∈ a.strides, 0 ≤ s) → (m'.write t idx v).read a idx = v) ∧
    ((∃ s ∈ a.strides, s < 0) → ∀ j, (m'.write t idx v).read a j = m.read a j) := by
  constructor
  · intro hs
    have hn : ¬ a.strides.any (· < 0) = true := by simpa using hs
    rw [pytorchFromNumpy, if_neg hn, torchFromNumpy, if_neg hn] at h
    cases h
    simp [Memory.write, Memory.read]
  · intro hs j
    obtain ⟨t', m2, w2, h1, -, -, h3, -, h4, h5⟩ := C161_fromNumpy m a ha
    rw [h] at h1
    cases h1
    have hne : a.buffer ≠ t.buffer := by
      intro e
      have := h5.1 e.symm
      rw [h4.2 hs] at this
      cases this
    rw [← (h3 a ha).2 j]
    simp [Memory.write, Memory.read, hne]

theorem fromNumpy_ok (b : BackendName) (m : Memory K) (a : Strided) (ha : m.Has a) :
    ∃ t m' w, fromNumpy b m a = .ok (t, m', w) ∧ t.shape = a.shape ∧
      (∀ idx, InShape a.shape idx → m'.read t idx = m.read a idx) ∧
      (∀ b, m.Has b → m'.Has b ∧ ∀ idx, m'.read b idx = m.read b idx) ∧ m'.Has t := by
  cases b with
  | pytorch =>
    obtain ⟨t, m', w, h1, h2, h3, h4, h5, -⟩ := C161_fromNumpy m a ha
    exact ⟨t, m', w, h1, h2, h3, h4, h5⟩
  | tensorflow =>
    exact ⟨_, _, _, rfl, rfl, fun _ hi => copy_read m a hi, fun b hb =>
      ⟨Nat.lt_succ_of_lt hb, copy_others m a hb⟩, Nat.lt_succ_self _⟩
  | _ => exact ⟨_, _, _, rfl, rfl, fun _ _ => rfl, fun b hb => ⟨hb, fun _ => rfl⟩, ha⟩

theorem seen_congr {m m' : Memory K} {a t : Strided} (hs : t.shape = a.shape)
    (h : ∀ idx, InShape a.shape idx → m'.read t idx = m.read a idx) : m'.seen t = m.seen a := by
  unfold Memory.seen
  rw [hs]
  congr 1
  apply List.map_congr_left
  intro k hk
  exact h _ (unravel_inShape (List.mem_range.1 hk))

theorem fromNumpys_ok (b : BackendName) (m : Memory K) (l : List Strided)
    (hl : ∀ a ∈ l, m.Has a) :
    ∃ ts m', fromNumpys b m l = .ok (ts, m') ∧ ts.map m'.seen = l.map m.seen ∧
      (∀ b, m.Has b → m'.Has b ∧ ∀ idx, m'.read b idx = m.read b idx) := by
  induction l generalizing m with
  | nil => exact ⟨[], m, rfl, rfl, fun b hb => ⟨hb, fun _ => rfl⟩⟩
  | cons a l ih =>
    obtain ⟨t, m', w, h1, h2, h3, h4, h5⟩ := fromNumpy_ok b m a (hl a (by simp))
    obtain ⟨ts, m'', e1, e2, e3⟩ := ih m' fun c hc => (h4 c (hl c (by simp [hc]))).1
    refine ⟨t :: ts, m'', by simp only [fromNumpys, h1, e1], ?_, fun c hc =>
      ⟨(e3 c (h4 c hc).1).1, fun idx => ((e3 c (h4 c hc).1).2 idx).trans ((h4 c hc).2 idx)⟩⟩
    rw [List.map_cons, List.map_cons, e2]
    congr 1
    · exact (seen_congr rfl fun idx _ => (e3 t h5).2 idx).trans (seen_congr h2 h3)
    · exact List.map_congr_left fun c hc =>
        seen_congr rfl fun idx _ => (h4 c (hl c (by simp [hc]))).2 idx

/-- **C161**: with every backend that is available, a decorated function is applied to the shapes
and elements of the arrays it is called with, however they lie in memory. -/
theorem C161_call {R : Type*} (env : Installed) (b : BackendName) (hb : isAvailable env b = true)
    (m : Memory K) (function : List (List ℕ × List K) → Except PyErr R) (args : List Strided)
    (hargs : ∀ a ∈ args, m.Has a) :
    callPrepared env b m function args = function (args.map m.seen) := by
  obtain ⟨ts, m', h1, h2, -⟩ := fromNumpys_ok b m args hargs
  simp only [callPrepared, assertAvailable, hb, Bool.not_true, Bool.false_eq_true, if_false, h1, h2]

end

/-! ## The hypotheses are met -/

/-- Version 1.13.1 with a suffix. -/
example : versionText 1 13 1 "+cu117".toList = "1.13.1+cu117".toList := by decide +kernel

/-- The reverse `x[::-1]` of a vector of three numbers: PyTorch copies it. -/
example : (⟨fun _ i => i, 1⟩ : Memory ℤ).Has ⟨0, 2, [3], [-1]⟩ ∧
    (⟨fun _ i => i, 1⟩ : Memory ℤ).seen ⟨0, 2, [3], [-1]⟩ = ([3], [2, 1, 0]) ∧
    (pytorchFromNumpy (⟨fun _ i => i, 1⟩ : Memory ℤ) ⟨0, 2, [3], [-1]⟩).map (fun r => r.1) =
      .ok ⟨1, 0, [3], [1]⟩ := by
  exact ⟨Nat.zero_lt_one, by decide +kernel, rfl⟩

/-- A signature that the decorators accept. -/
example : decorate true true true ⟨1, false, false, 0⟩ = .ok () := rfl

end Verif.Core
