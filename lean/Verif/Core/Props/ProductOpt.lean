/-
C151: optimizers on product manifolds with a Riemannian gradient supplied by the user; Nelder-Mead on
product manifolds.
-/
import Verif.Core.Model.ProductOpt
import Verif.Core.Props.Product
import Verif.Opt.Props.Raise

namespace Verif.Core
open Verif Verif.Opt

variable {A : Type} [PyArr A]

theorem except_ok_bind {α β : Type} (a : α) (f : α → Except PyErr β) :
    (Except.ok a >>= f) = f a := rfl

/-- The gradient the optimizer gets cannot be negated. -/
theorem wrapGradient_neg {ms : List (PyMfd A)} {f : Fn A} {x g : Val A}
    (h : wrapGradient (productLayout ms) f x = .ok g) : g.neg = .error .typeError := by
  unfold wrapGradient at h
  split at h
  · cases h
  · simp only [productLayout] at h
    obtain ⟨l, rfl⟩ := groupReturnValues_list h
    rfl

section
variable {S : Type} {ms : List (PyMfd A)} {cost : Val A → Except PyErr ℝ} {f : Fn A}
  {hess precon : Val A → Val A → Except PyErr (Val A)} {cfg : Cfg ℝ}
  {xls : XLineSearcher ℝ (Val A) (Val A) S} {clk : Clock ℝ}

/-- **C151** (steepest descent, negation): on a product manifold, steepest descent with a Riemannian
gradient supplied by the user returns for no cost, gradient, starting point, line searcher and
limits. -/
theorem C151_steepestDescent_never {x : Val A} {mem : S} {r : Result ℝ (Val A) × S} :
    ¬ XSDRuns cfg xls (userGradientProb ms cost f hess precon) clk x mem (.ok r) := by
  intro hr
  unfold XSDRuns at hr
  split at hr
  · cases hr
  have hstep : ∀ s k, xsdStep cfg xls (userGradientProb ms cost f hess precon) clk s ≠ .ok k := by
    intro s k hk
    unfold xsdStep xsdSearch at hk
    simp only [bind_assoc, except_bind_ok] at hk
    obtain ⟨_, _, g, hg, _, _, d, hd, _⟩ := hk
    rw [show (userGradientProb ms cost f hess precon).M.neg g = g.neg from rfl,
      wrapGradient_neg hg] at hd
    cases hd
  obtain ⟨n, hn⟩ := hr
  cases hn with
  | brk h1 => exact hstep _ _ h1
  | next h1 _ => exact hstep _ _ h1

/-- **C151** (steepest descent, the exception): if cost, gradient and norm can be computed at the
starting point, the run ends with `TypeError`. -/
theorem C151_steepestDescent_typeError {x : Val A} {mem : S} (hp : printerSetup cfg = .ok ())
    {c n : ℝ} {g : Val A} (hc : cost x = .ok c) (hg : wrapGradient (productLayout ms) f x = .ok g)
    (hn : prodNorm ms x g = .ok n) :
    XSDRuns cfg xls (userGradientProb ms cost f hess precon) clk x mem (.error .typeError) := by
  unfold XSDRuns
  rw [hp]
  refine ⟨1, .err ?_⟩
  unfold xsdStep xsdSearch
  dsimp only
  rw [show (userGradientProb ms cost f hess precon).cost (sdInit cfg x mem).x = .ok c from hc,
    show (userGradientProb ms cost f hess precon).grad (sdInit cfg x mem).x = .ok g from hg]
  simp only [except_ok_bind]
  rw [show (userGradientProb ms cost f hess precon).M.norm (sdInit cfg x mem).x g = .ok n from hn,
    show (userGradientProb ms cost f hess precon).M.neg g = .error .typeError from
      wrapGradient_neg hg]
  rfl

/-- **C151** (conjugate gradient, negation): the same for conjugate gradient without a
preconditioner. -/
theorem C151_conjugateGradient_never {rule : BetaRule} {orth : ℝ} {x : Val A} {mem : S}
    {r : Result ℝ (Val A) × S × List (Val A × Val A × ℝ)} :
    ¬ XCGRuns cfg rule orth xls (userGradientProb ms cost f hess fun _ v => .ok v) clk x mem
      (.ok r) := by
  intro hr
  unfold XCGRuns at hr
  split at hr
  · cases hr
  split at hr
  · cases hr
  rename_i s hs
  unfold xcgInit at hs
  simp only [except_bind_ok] at hs
  obtain ⟨_, _, g, hg, _, _, g', hg', _, _, d, hd, _⟩ := hs
  cases hg'
  rw [show (userGradientProb ms cost f hess fun _ v => .ok v).M.neg g = g.neg from rfl,
    wrapGradient_neg hg] at hd
  cases hd

/-- **C151** (trust regions, negation): the same for trust regions without a preconditioner and
without `use_rand`. -/
theorem C151_trustRegions_never {c : TRCfg ℝ} (hrand : c.useRand = false)
    {eta0 : ℤ → Except PyErr (Val A)} {mininner : ℤ} {maxinner : Option ℤ}
    {typicalDist : Except PyErr ℝ} {DeltaBar Delta0 : Option ℝ} {x : Val A}
    {r : Result ℝ (Val A) × List (Val A × ℝ × ℝ)} :
    ¬ XTRRuns cfg c (userGradientProb ms cost f hess fun _ v => .ok v) clk eta0 mininner maxinner
      typicalDist DeltaBar Delta0 x (.ok r) := by
  intro hr
  unfold XTRRuns at hr
  split at hr
  · cases hr
  rename_i Db D0 _
  split at hr
  · cases hr
  rename_i s hs
  unfold xtrInit at hs
  simp only [except_bind_ok] at hs
  obtain ⟨_, _, g, hg, _, _, h⟩ := hs
  cases h
  have hstep : ∀ (s : TRState ℝ (Val A) (Val A)) k, s.fgradx = g →
      xtrStep cfg c (userGradientProb ms cost f hess fun _ v => .ok v) clk eta0 mininner
        (maxinner.getD (userGradientProb ms cost f hess fun _ v => .ok v).M.dim) Db s ≠ .ok k := by
    intro s k hs hk
    unfold xtrStep at hk
    simp only [except_bind_ok] at hk
    obtain ⟨_, _, o, ho, _⟩ := hk
    unfold xtcg xtcgInit at ho
    simp only [hrand, Bool.false_eq_true, if_false, except_bind_ok] at ho
    obtain ⟨_, ⟨_, _, _, _, z, hz, _, _, d, hd, _⟩, _⟩ := ho
    cases hz
    rw [show (userGradientProb ms cost f hess fun _ v => .ok v).M.neg s.fgradx = s.fgradx.neg
      from rfl, hs, wrapGradient_neg hg] at hd
    cases hd
  obtain ⟨n, hn⟩ := hr
  cases hn with
  | brk h1 => exact hstep _ _ rfl h1
  | next h1 _ => exact hstep _ _ rfl h1

end

/-- **C151** (centroids): on a product manifold a centroid is never computed. -/
theorem C151_centroid_never {ms : List (PyMfd A)} {clk : Clock ℝ} {draw y : Val A}
    {points : List (Val A)} : ¬ ProductCentroidRuns ms clk draw points (.ok y) := by
  rintro ⟨r', hr', h⟩
  cases r' with
  | error e => cases h
  | ok q => exact C151_steepestDescent_never hr'

/-- **C151** (centroids): the computation ends with an exception. -/
theorem C151_centroid_raises {ms : List (PyMfd A)} {clk : Clock ℝ} {draw : Val A}
    {points : List (Val A)} : ∃ e, ProductCentroidRuns ms clk draw points (.error e) := by
  rcases hstep : xsdStep centroidCfg (xbackTracking (Val A) (Val A) centroidSearch)
    (productCentroidProb ms points) clk (sdInit centroidCfg draw none) with e | k
  · refine ⟨e, .error e, ?_, rfl⟩
    unfold XSDRuns
    rw [show printerSetup (centroidCfg (F := ℝ)) = .ok () from rfl]
    exact ⟨1, .err hstep⟩
  · unfold xsdStep xsdSearch at hstep
    simp only [bind_assoc, except_bind_ok] at hstep
    obtain ⟨_, _, g, hg, _, _, d, hd, _⟩ := hstep
    rw [show (productCentroidProb ms points).M.neg g = g.neg from rfl, wrapGradient_neg hg] at hd
    cases hd

/-- **C151** (Nelder-Mead, negation): on a product manifold Nelder-Mead, with whatever random points
its centroids are started from, only returns if it is stopped by its first check, before any move:
its result is then a vertex of the initial simplex. -/
theorem C151_nelderMead_never {ms : List (PyMfd A)} {xp : XProb ℝ (Val A) (Val A)}
    {clk : Clock ℝ} {o : NMObj ℝ} {sort : List (ℝ × Val A) → List (ℝ × Val A)}
    (hsort : ∀ l, (sort l).Perm l)
    {centroid : ℤ → List (Val A) → Except PyErr (Val A)}
    (hcent : ∀ it pts, ∃ clk' draw, ProductCentroidRuns ms clk' draw pts (centroid it pts))
    {init : InitArg (Val A)} {r : Result ℝ (Val A)}
    (hr : XNMRuns o sort centroid xp clk init (.ok r)) :
    r.iterations = 1 ∧ ∃ x, nmSimplex xp.M.dim init = .ok x ∧ r.point ∈ x := by
  have hno : ∀ it pts y, centroid it pts ≠ .ok y := by
    intro it pts y hy
    obtain ⟨clk', draw, h⟩ := hcent it pts
    rw [hy] at h
    exact C151_centroid_never h
  unfold XNMRuns at hr
  split at hr
  · cases hr
  rename_i x hx
  split at hr
  · cases hr
  rename_i s hs
  have hit : s.iteration = 0 ∧ ∀ v ∈ s.simplex, v.2 ∈ x := by
    unfold xnmInit at hs
    simp only [except_bind_ok] at hs
    obtain ⟨cs, hcs, hs⟩ := hs
    cases hs
    refine ⟨rfl, fun v hv => ?_⟩
    replace hv := (hsort cs).subset hv
    clear hsort hx hcent hno hr
    induction x generalizing cs with
    | nil => cases hcs; cases hv
    | cons p ps ih =>
      unfold xcosts at hcs
      simp only [except_bind_ok] at hcs
      obtain ⟨c, _, cs', h2, h3⟩ := hcs
      cases h3
      rcases List.mem_cons.mp hv with rfl | hv
      · exact List.mem_cons_self
      · exact List.mem_cons_of_mem _ (ih _ h2 hv)
  obtain ⟨n, hn⟩ := hr
  cases hn with
  | brk h1 =>
    unfold xnmStep at h1
    simp only at h1
    split at h1
    · split at h1
      · cases h1
      · rename_i best hb
        simp only [except_bind_ok] at h1
        obtain ⟨_, _, h2⟩ := h1
        cases h2
        refine ⟨by simp [hit.1], x, hx, hit.2 _ ((hsort _).subset (List.mem_of_head? hb))⟩
    · simp only [except_bind_ok] at h1
      obtain ⟨_, h2, _⟩ := h1
      exact absurd h2 (hno _ _ _)
  | next h1 _ =>
    unfold xnmStep at h1
    simp only at h1
    split at h1
    · split at h1
      · cases h1
      · simp only [except_bind_ok] at h1
        obtain ⟨_, _, h2⟩ := h1
        cases h2
    · simp only [except_bind_ok] at h1
      obtain ⟨_, h2, _⟩ := h1
      exact absurd h2 (hno _ _ _)

omit [PyArr A] in
/-- **C151** (Nelder-Mead, the exception): if the costs of the initial simplex can be computed and the
first check does not stop the run, it ends with the exception of the first centroid. -/
theorem C151_nelderMead_raises {xp : XProb ℝ (Val A) (Val A)} {clk : Clock ℝ} {o : NMObj ℝ}
    {sort : List (ℝ × Val A) → List (ℝ × Val A)}
    {centroid : ℤ → List (Val A) → Except PyErr (Val A)} {init : InitArg (Val A)}
    {x : List (Val A)} {cs : List (ℝ × Val A)} {e : PyErr}
    (hx : nmSimplex xp.M.dim init = .ok x) (hcs : xcosts xp.cost x = .ok cs)
    (hcheck : checkStop (o.resolve xp.M.dim).cfg clk.start (clk.check1 1 0) (clk.check2 1 0)
      (iteration := 1) (costEvaluations := xp.M.dim + 1) = none)
    (he : centroid 1 ((sort (sort cs)).dropLast.map Prod.snd) = .error e) :
    XNMRuns o sort centroid xp clk init (.error e) := by
  unfold XNMRuns
  simp only [hx, xnmInit, hcs, except_ok_bind]
  refine ⟨1, .err ?_⟩
  unfold xnmStep
  simp only [zero_add]
  rw [hcheck, he]
  rfl

/-- The computation of centroids on the product of two lines with some exceptions. -/
noncomputable def linesCentroid (_ : ℤ) (pts : List (Val ℝ)) : Except PyErr (Val ℝ) :=
  .error (C151_centroid_raises (ms := [scaledLine, scaledLine]) (clk := ⟨0, 0, 0, 0, 0⟩)
    (draw := .seq .list [.arr 1, .arr 1]) (points := pts)).choose

/-- `C151_nelderMead_never`: its hypotheses hold on the product of two lines, and a run that is stopped
by its first check returns. -/
example : (∀ it pts, ∃ clk' draw,
      ProductCentroidRuns [scaledLine, scaledLine] clk' draw pts (linesCentroid it pts)) ∧
    ∃ r, XNMRuns (F := ℝ) ⟨1000, 0, 0, 0, 0, none, some 1, 1, 2, 1 / 2⟩ id linesCentroid
      (userGradientProb [scaledLine, scaledLine] (fun _ => .ok 0) (fun _ => .error .notImplemented)
        (fun _ v => .ok v) fun _ v => .ok v) ⟨0, 0, 0, 0, 0⟩
      (.none fun _ => .seq .list [.arr 1, .arr 1]) (.ok r) := by
  refine ⟨fun it pts => ⟨_, _, C151_centroid_raises.choose_spec⟩, ?_⟩
  have h : ∃ r, xnmStep (F := ℝ) (NMObj.resolve ⟨1000, 0, 0, 0, 0, none, some 1, 1, 2, 1 / 2⟩ 2) id
      linesCentroid
      (userGradientProb [scaledLine, scaledLine] (fun _ => .ok 0) (fun _ => .error .notImplemented)
        (fun _ v => .ok v) fun _ v => .ok v) ⟨0, 0, 0, 0, 0⟩
      ⟨0, [0, 1, 2].map fun _ : ℕ => (0, .seq .list [.arr 1, .arr 1]), 3,
        [0, 1, 2].map fun _ : ℕ => .seq .list [.arr 1, .arr 1]⟩ = .ok (.brk r) := by
    unfold xnmStep checkStop
    dsimp only
    rw [if_neg (by simp [NMObj.cfg, NMObj.resolve, PyNum.le, PyNum.add]),
      if_pos (by simp [NMObj.cfg, NMObj.resolve])]
    exact ⟨_, rfl⟩
  obtain ⟨r, hr⟩ := h
  exact ⟨r, 1, .brk hr⟩

/-- **C151** on a product of two lines: the centroid of `(0, 2)`, computed from `(1, 1)`, ends with
`TypeError`. -/
theorem C151_centroid_example (clk : Clock ℝ) :
    ProductCentroidRuns [scaledLine, scaledLine] clk (.seq .list [.arr 1, .arr 1])
      [.seq .list [.arr 0, .arr 2]] (.error .typeError) := by
  refine ⟨.error .typeError, ?_, rfl⟩
  have hg : wrapGradient (productLayout [scaledLine, scaledLine])
      (centroidGradFn [scaledLine, scaledLine] [.seq .list [.arr 0, .arr 2]])
      (.seq .list [.arr 1, .arr 1]) = .ok (.seq .list [.arr 1, .arr (-1)]) := by
    simp [wrapGradient, productLayout, wrapFunction, flattenArguments, Val.items, flattenGroups,
      flattenGroup, scaledLine, centroidGradFn, centroidPoint, Layout.numValues, xlogs, xsum,
      productXMfd, prodLog, prodZeroVector, dispatch, sequence, zipArgs, call1, call2, asTV,
      Except.map, Val.sub, Val.add, Val.neg, negList, Val.lift2, lift2List, PyArr.add, PyArr.sub,
      PyArr.neg, groupReturnValues, groupLoop, Val.isListOrTuple, except_ok_bind]
    norm_num
  refine C151_steepestDescent_typeError (c := PyNum.add 0 (PyNum.pow (Real.sqrt 2) (PyNum.lit 2)) / 2)
    (n := Real.sqrt 2) rfl ?_ hg ?_
  · simp [flattenArguments, Val.items, flattenGroups, flattenGroup, scaledLine, centroidCostFn,
      centroidPoint, productLayout, Layout.numValues, xsumDist, productXMfd, prodDist, dispatch,
      sequence, zipArgs, call2, Except.map, Val.isListOrTuple, except_ok_bind]
    norm_num
  · simp [prodNorm, prodInner, dispatch, sequence, zipArgs, call3, Except.map, Val.items, scaledLine]
    norm_num

end Verif.Core
