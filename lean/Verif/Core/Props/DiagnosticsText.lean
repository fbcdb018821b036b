/-
What the checks of `/repo/src/pymanopt/tools/diagnostics.py` print tells what they found.
-/
import Verif.Core.Model.DiagnosticsText
import Verif.Core.Props.Diagnostics
import Verif.Base.FormatGLemmas

namespace Verif.Core
open Verif

/-- A text without spaces shows a number: it is `0` if and only if the number is, and it denotes a
number with a relative error of at most half a unit of the sixth significant digit. -/
def Shows (v : XF ℚ) (t : List Char) : Prop :=
  (t = ['0'] ↔ v = .fin 0) ∧ ' ' ∉ t ∧ ∀ q, v = .fin q → |readNumber t - q| ≤ |q| / (2 * 10 ^ 5)

/-- A sentence that ends with a number and a full stop. -/
def Tells (before : String) (v : XF ℚ) (line : List Char) : Prop :=
  ∃ t, Shows v t ∧ line = before.toList ++ t ++ ['.']

/-- **C167**, numbers. -/
theorem C167_numbers (v : XF ℚ) : Shows v (formatG v) :=
  ⟨formatG_eq_zero, formatG_no_space v, fun q hq => by rw [hq]; exact readNumber_formatG_relative q⟩

/-- A number, its text and the number that the text denotes. -/
example : formatG (.fin (1 / 3000000)) = "3.33333e-07".toList ∧
    readNumber "3.33333e-07".toList = 333333 / 10 ^ 12 := by decide +kernel

/-- **C167**, negation for the equation that `check_hessian` prints: the third number need not be the
difference of the first two as they are printed. -/
theorem C167_negation_equation : ∃ p q : ℚ, b64 q = q ∧ b64 p = p ∧ b64 (p - q) = p - q ∧
    formatG (.fin p) = "1".toList ∧ formatG (.fin q) = "1".toList ∧
    formatG (.fin (p - q)) = "1.19209e-07".toList :=
  ⟨1 + 1 / 2 ^ 23, 1, by decide +kernel⟩

section
variable {P E : Type*} [AddCommGroup E] [Module ℝ E] {polyfit : PolyFit} {pb : DiagProb P E}
  {val : ℝ → XF ℚ} {name : List Char}

/-- The first sentence: what is checked, and whether all errors are below `1e-12`. -/
def Opens (quad : Bool) (errors : List ℝ) (line : List Char) : Prop :=
  (if quad then "Hessian check. " else "Directional derivative check. ").toList <+: line ∧
  ((if quad then "the quadratic model is exact" else "the linear model is exact").toList <:+: line ↔
    ∀ e ∈ errors, e < 1 / 10 ^ 12) ∧
  ("slope of the continuous line should match".toList <:+: line ↔
    ¬ ∀ e ∈ errors, e < 1 / 10 ^ 12)

theorem opens_text (quad exact : Bool) (errors : List ℝ)
    (h : exact = true ↔ ∀ e ∈ errors, e < 1 / 10 ^ 12) :
    Opens quad errors (derivativeText quad exact) := by
  unfold Opens
  rw [← h]
  cases quad <;> cases exact <;> decide +kernel

/-- **C167**, derivative: if the check returns it prints one sentence, and this tells whether the
model is exact. -/
theorem C167_derivative {x : P} {d : E} {quad : Bool} {out : DiagOut}
    (h : checkDirectionalDerivative polyfit pb (some x) (some d) quad = .ok out) :
    ∃ line, derivativeSays pb (some x) (some d) quad = [line] ∧ Opens quad out.error line := by
  unfold checkDirectionalDerivative at h
  unfold derivativeSays
  simp only [Option.getD_some] at h ⊢
  split at h
  · cases h
  · next value hv =>
    rw [hv]
    obtain ⟨-, h2, -⟩ := slopeEstimate_out h
    refine ⟨_, rfl, opens_text _ _ _ ?_⟩
    rw [h2]
    simp [List.all_eq_true]

/-- **C167**, gradient: if the check returns it prints the sentence about the model and then either
the size of what `to_tangent_space` removes from the gradient or, where that method is not
implemented, that this could not be verified, with the name of the class. -/
theorem C167_gradient {x : P} {d : E} {out : DiagOut} {r : Option ℝ}
    (h : checkGradient true polyfit pb (some x) (some d) = .ok (out, r)) :
    ∃ first rest, gradientSays true val name polyfit pb (some x) (some d) = first :: rest ∧
      Opens false out.error first ∧
      (∀ w, pb.M.toTangent x (pb.grad x) = .ok w → ∃ line, rest =
        [line, "If it is far from 0, then the gradient is not in the tangent space.".toList] ∧
        Tells "The residual should be close to 0: " (val (pb.M.norm x (pb.grad x - w))) line) ∧
      (pb.M.toTangent x (pb.grad x) = .error .notImplemented → rest =
        [("Pymanopt was unable to verify that the gradient is indeed a tangent vector since ").toList
          ++ name ++ " does not provide a 'to_tangent_space' implementation.".toList]) := by
  simp only [checkGradient, Bool.not_true, Bool.false_eq_true, if_false, Option.getD_some] at h
  split at h
  · cases h
  next o ho =>
  obtain ⟨line, h1, h2⟩ := C167_derivative ho
  have hout : o = out := by
    split at h
    · cases h
    · cases h; rfl
  subst hout
  refine ⟨line, gradientTangentSays val name pb.M x (pb.grad x), ?_, h2, fun w hw => ?_,
    fun hw => ?_⟩
  · simp only [gradientSays, Bool.not_true, Bool.false_eq_true, if_false, Option.getD_some, h1, ho]
    rfl
  · simp only [gradientTangentSays, hw]
    exact ⟨_, rfl, _, C167_numbers _, rfl⟩
  · simp only [gradientTangentSays, hw]

/-- **C167**, Hessian: if the check returns it prints the sentence about the model, what it found
about the tangent space, the size of the deviation from linearity, the two inner products and their
difference. -/
theorem C167_hessian {x : P} {d : E} {a b : ℝ} {out : HessOut}
    (h : checkHessian true polyfit a b pb (some x) (some d) = .ok out) :
    ∃ first tangent linear symmetric,
      hessianSays true val name polyfit a b pb (some x) (some d) = first :: tangent ++
        [[], linear, "If it is far from 0, then the Hessian is not a linear operator.".toList,
          [], symmetric, "If it is far from 0 then the Hessian is not a symmetric operator.".toList] ∧
      Opens true out.out.error first ∧
      (∀ w, pb.M.toTangent x (pb.hess x d) = .ok w → ∃ line, tangent =
        [line, "If it is far from 0, then the Hessian is not in the tangent space.".toList] ∧
        Tells "The residual should be 0, or very close. Residual: "
          (val (pb.M.norm x (pb.hess x d - w))) line) ∧
      (pb.M.toTangent x (pb.hess x d) = .error .notImplemented → tangent =
        [("Pymanopt was unable to verify that the Hessian operator indeed yields a tangent " ++
          "vector since ").toList ++ name ++
          " does not provide a 'to_tangent_space' implementation.".toList]) ∧
      Tells ("The norm of the residual between H[a*d1 + b*d2] and a*H[d1] + b*H[d2] should be " ++
        "very close to 0: ") (val out.linearity) linear ∧
      ∃ s t u, symmetric = "The difference <d1, H[d2]> - <H[d1], d2> should be close to zero: ".toList
          ++ s ++ " - ".toList ++ t ++ " = ".toList ++ u ++ ['.'] ∧
        Shows (val out.productA) s ∧ Shows (val out.productB) t ∧ Shows (val out.symmetry) u ∧
        out.symmetry = out.productA - out.productB := by
  simp only [checkHessian, Bool.not_true, Bool.false_eq_true, if_false, Option.getD_some] at h
  split at h
  · cases h
  next o ho =>
  obtain ⟨line, h1, h2⟩ := C167_derivative ho
  split at h
  · cases h
  next r hr =>
  cases h
  refine ⟨line, hessianTangentSays val name pb.M x (pb.hess x d), _, _, ?_, h2, fun w hw => ?_,
    fun hw => ?_, ⟨_, C167_numbers _, rfl⟩, _, _, _, rfl, C167_numbers _, C167_numbers _,
    C167_numbers _, rfl⟩
  · simp only [hessianSays, Bool.not_true, Bool.false_eq_true, if_false, Option.getD_some, h1, ho,
      hr]
    rfl
  · simp only [hessianTangentSays, hw]
    exact ⟨_, rfl, _, C167_numbers _, rfl⟩
  · simp only [hessianTangentSays, hw]
    rfl

/-- **C167**, gradient: on a manifold that implements `to_tangent_space`, the sentence says `0` if and
only if that method leaves the gradient as it is, if only the zero vector has norm zero and only zero
is formatted as zero. -/
theorem C167_gradient_verdict {x : P} {d : E} {out : DiagOut} {r : Option ℝ}
    (h : checkGradient true polyfit pb (some x) (some d) = .ok (out, r)) {w : E}
    (hw : pb.M.toTangent x (pb.grad x) = .ok w) (hn : ∀ v, pb.M.norm x v = 0 ↔ v = 0)
    (hval : ∀ t, val t = .fin 0 ↔ t = 0) :
    "The residual should be close to 0: 0.".toList ∈
      gradientSays true val name polyfit pb (some x) (some d) ↔ w = pb.grad x := by
  obtain ⟨first, rest, h1, h2, h3, -⟩ := C167_gradient (val := val) (name := name) h
  obtain ⟨line, rfl, t, ht, rfl⟩ := h3 w hw
  rw [h1, List.mem_cons, List.mem_cons, List.mem_singleton]
  have e1 : "The residual should be close to 0: 0.".toList ≠ first := by
    rintro rfl
    exact absurd h2.1 (by decide +kernel)
  have e2 : "The residual should be close to 0: 0.".toList ≠
      "If it is far from 0, then the gradient is not in the tangent space.".toList := by
    decide +kernel
  have e3 : "The residual should be close to 0: 0.".toList =
      "The residual should be close to 0: ".toList ++ ['0'] ++ ['.'] := by decide +kernel
  simp only [e1, e2, false_or, or_false]
  rw [e3, List.append_left_inj, List.append_right_inj, eq_comm, ht.1, hval, hn, sub_eq_zero,
    eq_comm]

/-- **C167**, Hessian: the sentence about linearity says `0` if and only if the Hessian is linear on
the combination drawn; the sentence about symmetry ends with `= 0.` if and only if the Hessian is
symmetric on the vectors drawn, and then the two inner products have the same text. -/
theorem C167_hessian_verdict {x : P} {d : E} {a b : ℝ} {out : HessOut}
    (h : checkHessian true polyfit a b pb (some x) (some d) = .ok out)
    (hn : ∀ v, pb.M.norm x v = 0 ↔ v = 0) (hval : ∀ t, val t = .fin 0 ↔ t = 0) :
    ∃ before linear symmetric, hessianSays true val name polyfit a b pb (some x) (some d) = before ++
        [[], linear, "If it is far from 0, then the Hessian is not a linear operator.".toList,
          [], symmetric, "If it is far from 0 then the Hessian is not a symmetric operator.".toList] ∧
      (linear = ("The norm of the residual between H[a*d1 + b*d2] and a*H[d1] + b*H[d2] should be " ++
          "very close to 0: 0.").toList ↔
        pb.hess x (a • pb.M.randomTangent 1 x + b • pb.M.randomTangent 2 x) =
          a • pb.hess x (pb.M.randomTangent 1 x) + b • pb.hess x (pb.M.randomTangent 2 x)) ∧
      (" = 0.".toList <:+ symmetric ↔
        pb.M.inner x (pb.M.randomTangent 1 x) (pb.hess x (pb.M.randomTangent 2 x)) =
          pb.M.inner x (pb.hess x (pb.M.randomTangent 1 x)) (pb.M.randomTangent 2 x)) := by
  obtain ⟨first, tangent, linear, symmetric, h1, -, -, -, ⟨t, ht, rfl⟩, s, s', u, rfl, -, -, hu, -⟩ :=
    C167_hessian (val := val) (name := name) h
  have hlin : out.linearity = pb.M.norm x
        (pb.hess x (a • pb.M.randomTangent 1 x + b • pb.M.randomTangent 2 x) -
          (a • pb.hess x (pb.M.randomTangent 1 x) + b • pb.hess x (pb.M.randomTangent 2 x))) ∧
      out.symmetry = pb.M.inner x (pb.M.randomTangent 1 x) (pb.hess x (pb.M.randomTangent 2 x)) -
          pb.M.inner x (pb.hess x (pb.M.randomTangent 1 x)) (pb.M.randomTangent 2 x) := by
    simp only [checkHessian, Bool.not_true, Bool.false_eq_true, if_false, Option.getD_some] at h
    split at h
    · cases h
    split at h
    · cases h
    cases h
    exact ⟨rfl, rfl⟩
  refine ⟨_, _, _, h1, ?_, ?_⟩
  · have e3 : ("The norm of the residual between H[a*d1 + b*d2] and a*H[d1] + b*H[d2] should be " ++
          "very close to 0: 0.").toList =
        ("The norm of the residual between H[a*d1 + b*d2] and a*H[d1] + b*H[d2] should be " ++
          "very close to 0: ").toList ++ ['0'] ++ ['.'] := by decide +kernel
    rw [e3, List.append_left_inj, List.append_right_inj, ht.1, hval, hlin.1, hn, sub_eq_zero]
  · rw [← sub_eq_zero (b := pb.M.inner x _ _), ← hlin.2, ← hval, ← hu.1]
    constructor
    · rintro ⟨l, hl⟩
      have e : ∀ s : List Char, s ++ " = ".toList ++ u ++ ['.'] = (s ++ " =".toList) ++ ' ' :: (u ++ ['.']) :=
        fun s => by simp
      have e' : l ++ " = 0.".toList = (l ++ " =".toList) ++ ' ' :: ['0', '.'] := by simp
      rw [e, e'] at hl
      have := last_word hl (by decide) (by simp [hu.2.1])
      exact (List.append_left_inj ['.']).1 (this.symm.trans rfl)
    · rintro rfl
      refine ⟨"The difference <d1, H[d2]> - <H[d1], d2> should be close to zero: ".toList ++ s ++
        " - ".toList ++ s', ?_⟩
      simp

/-- **C167**: without matplotlib, or given a direction without a point, the checks print nothing;
what is not given is drawn. -/
theorem C167_arguments (x : P) (d : E) (y : Option P) (e : Option E) (a b : ℝ) (quad plt : Bool) :
    gradientSays false val name polyfit pb y e = [] ∧
    hessianSays false val name polyfit a b pb y e = [] ∧
    derivativeSays pb none (some d) quad = [] ∧
    gradientSays plt val name polyfit pb none (some d) = [] ∧
    hessianSays plt val name polyfit a b pb none (some d) = [] ∧
    gradientSays plt val name polyfit pb (some x) none =
      gradientSays plt val name polyfit pb (some x) (some (pb.M.randomTangent 0 x)) ∧
    gradientSays plt val name polyfit pb none none =
      gradientSays plt val name polyfit pb (some pb.M.randomPoint) none ∧
    hessianSays plt val name polyfit a b pb (some x) none =
      hessianSays plt val name polyfit a b pb (some x) (some (pb.M.randomTangent 0 x)) ∧
    hessianSays plt val name polyfit a b pb none none =
      hessianSays plt val name polyfit a b pb (some pb.M.randomPoint) none := by
  refine ⟨rfl, rfl, rfl, ?_, ?_, rfl, rfl, rfl, rfl⟩ <;> cases plt <;> rfl

/-- **C167**, retraction: two checks that print the same text found the same slope and the same norm
of the distances, if different floats have different texts, without line breaks. -/
theorem C167_retraction {str : XF ℚ → List Char} (hinj : Function.Injective str)
    (hline : ∀ t, '\n' ∉ str t) {M M' : DiagMfd P E} {x x' : P} {v v' : E} {out out' : RetrOut}
    (h : checkRetraction true polyfit M (some x) (some v) = .ok out)
    (h' : checkRetraction true polyfit M' (some x') (some v') = .ok out')
    (heq : retractionSays true val str polyfit M (some x) (some v) =
      retractionSays true val str polyfit M' (some x') (some v')) :
    val out.poly.1 = val out'.poly.1 ∧ val (Real.sqrt ((out.errors.map fun e => e ^ 2).sum)) =
      val (Real.sqrt ((out'.errors.map fun e => e ^ 2).sum)) := by
  have cancel : ∀ {s s' r r' : List Char}, '\n' ∉ s → '\n' ∉ s' →
      s ++ '.' :: '\n' :: r = s' ++ '.' :: '\n' :: r' → s = s' ∧ r = r' := by
    intro s s' r r' hs hs' he
    have key : ∀ {s r : List Char}, '\n' ∉ s →
        (s ++ '.' :: '\n' :: r).takeWhile (fun c => decide (c ≠ '\n')) = s ++ ['.'] := by
      intro s r hs
      have hm : ∀ c ∈ s ++ ['.'], decide (c ≠ '\n') = true := by
        intro c hc
        rw [decide_eq_true_eq]
        rintro rfl
        simp only [List.mem_append, List.mem_singleton] at hc
        rcases hc with hc | hc
        · exact hs hc
        · exact absurd hc (by decide)
      have := (takeWhile_append_mark (r := r) hm (c := '\n') (by simp)).1
      simpa using this
    have h1 := key (r := r) hs
    rw [he, key hs'] at h1
    have h2 := ((List.append_left_inj ['.']).1 h1).symm
    subst h2
    have := (List.append_right_inj s).1 he
    simp only [List.cons.injEq, true_and] at this
    exact ⟨rfl, this⟩
  unfold retractionSays at heq
  rw [h, h'] at heq
  simp only [List.cons.injEq, and_true] at heq
  unfold retractionText at heq
  simp only [List.append_assoc] at heq
  have h1 := (List.append_right_inj _).1 heq
  obtain ⟨e1, h2⟩ := cancel (hline _) (hline _) h1
  have h3 := (List.append_right_inj (("Note: if the implementation of the exponential map and the\n" ++
    "retraction are identical, this should be zero: ").toList)).1 h2
  obtain ⟨e2, -⟩ := cancel (hline _) (hline _) h3
  exact ⟨hinj e1, hinj e2⟩

end

/-! ## The hypotheses are met -/

/-- The real line, with a method `to_tangent_space` that returns its argument. -/
noncomputable def lineDiag : DiagMfd ℝ ℝ :=
  ⟨fun x v => .ok (x + v), fun x v => .ok (x + v), fun x y => .ok |x - y|, fun _ v => .ok v,
    fun _ u v => u * v, fun _ v => |v|, 0, fun _ _ => 1⟩

/-- The cost `x ^ 2` on the line: both checks return, only the zero vector has norm zero, and there is
a formatting of numbers under which only zero is formatted as zero. -/
example : (∃ o, checkGradient true (fun _ _ => ((0, 0), [1])) ⟨lineDiag, fun x => x ^ 2, fun x => 2 * x,
      fun _ v => 2 * v⟩ (some 1) (some 1) = .ok o) ∧
    (∃ o, checkHessian true (fun _ _ => ((0, 0), [1])) 1 2 ⟨lineDiag, fun x => x ^ 2, fun x => 2 * x,
      fun _ v => 2 * v⟩ (some 1) (some 1) = .ok o) ∧
    (∀ v, lineDiag.norm 1 v = 0 ↔ v = 0) ∧
    ∃ val : ℝ → XF ℚ, ∀ t, val t = .fin 0 ↔ t = 0 := by
  have hγ : Follows lineDiag 1 (fun v => 1 + v) := Or.inl fun _ => rfl
  have hret : ∀ quad, ∃ out, checkDirectionalDerivative (fun _ _ => ((0, 0), [1]))
      ⟨lineDiag, fun x => x ^ 2, fun x => 2 * x, fun _ v => 2 * v⟩ (some 1) (some 1) quad = .ok out :=
    fun quad => C116_returns (pb := ⟨lineDiag, fun x => x ^ 2, fun x => 2 * x, fun _ v => 2 * v⟩)
      hγ fun _ _ _ _ => ⟨1, rfl⟩
  refine ⟨?_, ?_, fun v => abs_eq_zero, fun t => if t = 0 then .fin 0 else .fin 1, fun t => ?_⟩
  · obtain ⟨out, ho⟩ := hret false
    simp only [checkGradient, Bool.not_true, Bool.false_eq_true, if_false, Option.getD_some, ho]
    exact ⟨_, rfl⟩
  · obtain ⟨out, ho⟩ := hret true
    simp only [checkHessian, Bool.not_true, Bool.false_eq_true, if_false, Option.getD_some, ho]
    exact ⟨_, rfl⟩
  · by_cases ht : t = 0 <;> simp [ht]

/-- The real line with the retraction `x + v + v ^ 2`: `check_retraction` returns. -/
theorem check_line_retraction : ∃ out, checkRetraction true (fun _ _ => ((2, 0), [1]))
    { lineDiag with retraction := fun x v => .ok (x + v + v ^ 2) } (some 1) (some 1) = .ok out := by
  have hr : ∀ ts : List ℝ, retractionErrors
      { lineDiag with retraction := fun x v => .ok (x + v + v ^ 2) } 1 1 ts =
        .ok (ts.map fun t => |(1 + t • 1) - (1 + t • 1 + (t • 1) ^ 2)|) := by
    intro ts
    induction ts with
    | nil => rfl
    | cons t ts ih => simp only [retractionErrors, ih]; rfl
  simp only [checkRetraction, hr, Bool.not_true, Bool.false_eq_true, if_false]
  simp only [lineDiag]
  obtain ⟨⟨seg, poly⟩, hout⟩ := C49_succeeds
    (fun _ => (((2, 0), [1]) : (ℝ × ℝ) × List ℝ)) Real.sqrt (logspace (-12) 0 251).length 10
    (by simp [logspace]) (fun _ _ => ⟨1, rfl⟩)
  rw [hout]
  exact ⟨_, rfl⟩

/-- Distinct texts without line breaks for distinct floats (`C167_retraction`). -/
example : ∃ str : XF ℚ → List Char, Function.Injective str ∧ ∀ t, '\n' ∉ str t := by
  have digit : ∀ {w n : ℕ}, '\n' ∉ fixedDigits w n := by
    intro w
    induction w with
    | zero => simp [fixedDigits]
    | succ w ih =>
      intro n h
      simp only [fixedDigits, List.mem_append, List.mem_singleton] at h
      rcases h with h | h
      · exact ih h
      · have : n % 10 < 10 := Nat.mod_lt _ (by norm_num)
        revert h
        generalize n % 10 = k at this
        interval_cases k <;> decide
  let code : XF ℚ → ℕ
    | .nan => 0
    | .pinf => 1
    | .ninf => 2
    | .fin q => 3 + Encodable.encode q
  refine ⟨fun v => natText (code v), fun v w h => ?_, fun t => digit⟩
  have h1 : code v = code w := by
    have := congrArg readDigits h
    simpa only [readDigits_natText] using this
  cases v <;> cases w <;> simp only [code] at h1 <;> try omega
  · rfl
  · rfl
  · rfl
  · rw [Encodable.encode_injective (Nat.add_left_cancel h1)]

end Verif.Core
