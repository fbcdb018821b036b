/-
C155: what Nelder-Mead does to the costs of the simplex, when it can shrink, and why the simplex
stays a simplex.
-/
import Mathlib.Analysis.Convex.Combination
import Mathlib.Analysis.Convex.Quasiconvex
import Mathlib.LinearAlgebra.AffineSpace.Independent
import Mathlib.LinearAlgebra.AffineSpace.MidpointZero
import Mathlib.Analysis.Convex.Mul
import Verif.Opt.Props.NM
import Verif.Opt.Model.Centroid
import Verif.Geo.Model.OptMfd

namespace Verif.Geo
open PyNum Verif.Opt

/-! ### The costs of the simplex -/

section
variable {F P E : Type*} [PyNum F] [LawfulPyNum F]
  {o : NMObj F} {sort : List (F × P) → List (F × P)} {centroid : ℤ → List P → Except PyErr P}
  {pb : Prob F P E} {clk : Clock F} {x : List P} {s s' : NMState F P}

omit [LawfulPyNum F] in
theorem nm_length (hsort : SortsByCost sort)
    (h : Reaches (nmStep o sort centroid pb clk) (nmInit sort pb x) s) :
    s.simplex.length = x.length := by
  refine h.invariant (fun s => s.simplex.length = x.length) ?_ ?_
  · intro t t' ht hst
    obtain ⟨xbar, m, -, -, hm, rfl⟩ := nmStep_next hst
    rw [(nmMove_spec hm).1, (hsort _).1.length_eq, ht]
  · simp [nmInit, (hsort _).1.length_eq]

omit [LawfulPyNum F] in
/-- An iteration from a reachable state, with everything the code knows about it. -/
theorem nm_iteration (hsort : SortsByCost sort) (hnan : ∀ p, isnan (pb.cost p) = false)
    (hd : 0 < pb.M.dim) (hx : x.length = pb.M.dim + 1)
    (h : Reaches (nmStep o sort centroid pb clk) (nmInit sort pb x) s)
    (hst : nmStep o sort centroid pb clk s = .ok (.next s')) :
    ∃ xbar m l best second worst, sort s.simplex = l ++ [worst] ∧ s.simplex.Perm (l ++ [worst]) ∧
      l.head? = some best ∧ l.getLast? = some second ∧ l.length = pb.M.dim ∧
      (∀ v ∈ l ++ [worst], v.1 = pb.cost v.2) ∧
      ((l ++ [worst]).Pairwise fun a b => le a.1 b.1 = true) ∧
      centroid (s.iteration + 1) (l.map Prod.snd) = .ok xbar ∧
      nmMove o pb.cost pb.M xbar (l ++ [worst]) = .ok m ∧ s'.simplex = m.simplex ∧
      s'.iteration = s.iteration + 1 := by
  have hlen := nm_length hsort h
  have hc := nmReaches_costs hsort h (nmInit_costs hsort pb x)
  have hn : ∀ v ∈ s.simplex, isnan v.1 = false := fun v hv => by rw [hc v hv]; exact hnan _
  obtain ⟨xbar, m, -, hcen, hm, rfl⟩ := nmStep_next hst
  have hperm := (hsort s.simplex).1
  have hl : (sort s.simplex).length = pb.M.dim + 1 := by rw [hperm.length_eq, hlen, hx]
  obtain ⟨l, worst, hlw⟩ : ∃ l worst, sort s.simplex = l ++ [worst] := by
    rcases List.eq_nil_or_concat (sort s.simplex) with h | ⟨l, w, h⟩
    · rw [h] at hl; simp at hl
    · exact ⟨l, w, by simpa using h⟩
  rw [hlw] at hl
  have hl' : l.length = pb.M.dim := by simpa using hl
  have hne : l ≠ [] := by rintro rfl; simp at hl'; omega
  refine ⟨xbar, m, l, l.head hne, l.getLast hne, worst, hlw, hlw ▸ hperm.symm,
    List.head?_eq_some_head hne, List.getLast?_eq_some_getLast hne, hl', ?_, ?_, ?_, ?_, rfl, rfl⟩
  · intro v hv
    exact hc v (hperm.mem_iff.1 (hlw ▸ hv))
  · have := (hsort s.simplex).2 hn
    rwa [hlw] at this
  · rwa [hlw, List.dropLast_concat] at hcen
  · rwa [hlw] at hm

/-- An iteration whose checks do not stop the run and whose centroid is computed raises nothing. -/
theorem nm_advances (hsort : SortsByCost sort) (hnan : ∀ p, isnan (pb.cost p) = false)
    (hd : 0 < pb.M.dim) (hx : x.length = pb.M.dim + 1)
    (h : Reaches (nmStep o sort centroid pb clk) (nmInit sort pb x) s)
    (hchk : checkStop o.cfg clk.start (clk.check1 (s.iteration + 1) 0)
      (clk.check2 (s.iteration + 1) 0) (iteration := s.iteration + 1)
      (costEvaluations := s.costEvaluations) = none)
    (hcen : ∀ it pts, pts ≠ [] → ∃ xbar, centroid it pts = .ok xbar) :
    ∃ s', nmStep o sort centroid pb clk s = .ok (.next s') := by
  have hlen := nm_length hsort h
  have hc := nmReaches_costs hsort h (nmInit_costs hsort pb x)
  have hn : ∀ v ∈ s.simplex, isnan v.1 = false := fun v hv => by rw [hc v hv]; exact hnan _
  have hperm := (hsort s.simplex).1
  have hl : (sort s.simplex).length = pb.M.dim + 1 := by rw [hperm.length_eq, hlen, hx]
  obtain ⟨l, worst, hlw⟩ : ∃ l worst, sort s.simplex = l ++ [worst] := by
    rcases List.eq_nil_or_concat (sort s.simplex) with h | ⟨l, w, h⟩
    · rw [h] at hl; simp at hl
    · exact ⟨l, w, by simpa using h⟩
  have hp := (hsort s.simplex).2 hn
  rw [hlw] at hl hp hperm
  have hl' : l.length = pb.M.dim := by simpa using hl
  have hne : l ≠ [] := by rintro rfl; simp at hl'; omega
  obtain ⟨xbar, hxb⟩ := hcen (s.iteration + 1) (l.map Prod.snd) (by simpa using hne)
  obtain ⟨m, hm, -⟩ := C18_nelderMead o pb.cost pb.M xbar hnan _ _ worst l
    (List.head?_eq_some_head hne) (List.getLast?_eq_some_getLast hne) hl'
    (fun v hv => hn v (hperm.mem_iff.1 hv)) hp
  refine ⟨⟨s.iteration + 1, m.simplex, s.costEvaluations + m.counted, s.evals ++ m.evals⟩, ?_⟩
  unfold nmStep
  simp only [hchk, hlw, List.dropLast_concat, hxb, hm]

/-- **C155** An iteration other than a shrinkage replaces one vertex of greatest cost by a point of
no greater cost, of strictly smaller cost unless it is an inside contraction, and leaves all other
vertices as they are. -/
theorem C155_replacement (hsort : SortsByCost sort) (hnan : ∀ p, isnan (pb.cost p) = false)
    (hd : 0 < pb.M.dim) (hx : x.length = pb.M.dim + 1)
    (h : Reaches (nmStep o sort centroid pb clk) (nmInit sort pb x) s)
    (hst : nmStep o sort centroid pb clk s = .ok (.next s')) :
    ∃ xbar m, centroid (s.iteration + 1) ((sort s.simplex).dropLast.map Prod.snd) = .ok xbar ∧
      nmMove o pb.cost pb.M xbar (sort s.simplex) = .ok m ∧ s'.simplex = m.simplex ∧
      (m.action ≠ .shrinkage → ∃ rest worst new, s.simplex.Perm (rest ++ [worst]) ∧
        s'.simplex = rest ++ [new] ∧ (∀ v ∈ rest, le v.1 worst.1 = true) ∧
        new.1 = pb.cost new.2 ∧ le new.1 worst.1 = true ∧
        (m.action ≠ .insideContraction → lt new.1 worst.1 = true)) := by
  obtain ⟨xbar, m, l, best, second, worst, hs, hperm, hb, hse, hl, hc, hp, hcen, hm, hs', -⟩ :=
    nm_iteration hsort hnan hd hx h hst
  have hn : ∀ v ∈ l ++ [worst], isnan v.1 = false := fun v hv => by rw [hc v hv]; exact hnan _
  refine ⟨xbar, m, by rw [hs, List.dropLast_concat, hcen], hs ▸ hm, hs', fun hact => ?_⟩
  obtain ⟨m', hm', htab, -, hrep, -⟩ :=
    C18_nelderMead o pb.cost pb.M xbar hnan best second worst l hb hse hl hn hp
  rw [hm'] at hm
  cases hm
  obtain ⟨hsim, hle⟩ := hrep hact
  have hbm : best ∈ l := List.mem_of_head? hb
  have hsm : second ∈ l := List.mem_of_getLast? hse
  have hlw : ∀ v ∈ l, le v.1 worst.1 = true := fun v hv =>
    (List.pairwise_append.1 hp).2.2 v hv worst (by simp)
  have nw : isnan worst.1 = false := hn worst (by simp)
  have nm : ∀ v ∈ l, isnan v.1 = false := fun v hv => hn v (List.mem_append_left _ hv)
  have ltle : ∀ {a b c : F}, isnan a = false → isnan b = false → isnan c = false →
      lt a b = true → le b c = true → lt a c = true := by
    intro a b c ha hb hc h1 h2
    by_contra hcon
    have h3 : lt a c = false := by simpa using hcon
    have h4 := (LawfulPyNum.le_iff c a hc ha).2 h3
    have h5 := LawfulPyNum.le_trans hb hc ha h2 h4
    rw [LawfulPyNum.le_iff b a hb ha, h1] at h5
    cases h5
  have lelt : ∀ {a b c : F}, isnan a = false → isnan b = false → isnan c = false →
      le a b = true → lt b c = true → lt a c = true := by
    intro a b c ha hb hc h1 h2
    by_contra hcon
    have h3 : lt a c = false := by simpa using hcon
    have h4 := (LawfulPyNum.le_iff c a hc ha).2 h3
    have h5 := LawfulPyNum.le_trans hc ha hb h4 h1
    rw [LawfulPyNum.le_iff c b hc hb, h2] at h5
    cases h5
  refine ⟨l, worst, _, hperm, by rw [hs', hsim], hlw, rfl, hle, fun hin => ?_⟩
  cases hma : m.action with
  | reflection =>
    rw [hma] at htab
    cases htab with
    | reflection h1 h2 => exact ltle (hnan _) (nm _ hsm) nw h2 (hlw _ hsm)
  | expansion =>
    rw [hma] at htab
    cases htab with
    | expansion h1 h2 =>
      exact ltle (hnan _) (nm _ hbm) nw (LawfulPyNum.lt_trans _ _ _ h2 h1) (hlw _ hbm)
  | failedExpansion =>
    rw [hma] at htab
    cases htab with
    | failedExpansion h1 h2 => exact ltle (hnan _) (nm _ hbm) nw h1 (hlw _ hbm)
  | outsideContraction =>
    rw [hma] at htab
    cases htab with
    | outside h1 h2 h3 => exact lelt (hnan _) (hnan _) nw h3 h2
  | insideContraction => exact absurd hma hin
  | shrinkage => exact absurd hma hact

/-- **C155** In an iteration that does not shrink the simplex no ordered cost increases: whatever
`c`, there are afterwards at least as many vertices with cost at most `c`. -/
theorem C155_ordered_costs (hsort : SortsByCost sort) (hnan : ∀ p, isnan (pb.cost p) = false)
    (hd : 0 < pb.M.dim) (hx : x.length = pb.M.dim + 1)
    (h : Reaches (nmStep o sort centroid pb clk) (nmInit sort pb x) s)
    (hst : nmStep o sort centroid pb clk s = .ok (.next s')) :
    ∃ xbar m, centroid (s.iteration + 1) ((sort s.simplex).dropLast.map Prod.snd) = .ok xbar ∧
      nmMove o pb.cost pb.M xbar (sort s.simplex) = .ok m ∧ s'.simplex = m.simplex ∧
      (m.action ≠ .shrinkage → ∀ c, isnan c = false →
        s.simplex.countP (fun v => le v.1 c) ≤ s'.simplex.countP (fun v => le v.1 c)) := by
  obtain ⟨xbar, m, hcen, hm, hs', hrep⟩ := C155_replacement hsort hnan hd hx h hst
  refine ⟨xbar, m, hcen, hm, hs', fun hact c hcn => ?_⟩
  obtain ⟨rest, worst, new, hp, hn, -, hnc, hle, -⟩ := hrep hact
  have hc := nmReaches_costs hsort h (nmInit_costs hsort pb x)
  have nw : isnan worst.1 = false := by
    rw [hc worst (hp.mem_iff.2 (by simp))]; exact hnan _
  rw [hp.countP_eq, hn, List.countP_append, List.countP_append]
  refine Nat.add_le_add_left ?_ _
  simp only [List.countP_singleton]
  by_cases hw : le worst.1 c = true
  · have : le new.1 c = true := LawfulPyNum.le_trans (by rw [hnc]; exact hnan _) nw hcn hle hw
    simp [this, hw]
  · simp [hw]

end

/-! ### When the simplex shrinks -/

section
variable {P E : Type*} {o : NMObj ℝ} {sort : List (ℝ × P) → List (ℝ × P)}
  {centroid : ℤ → List P → Except PyErr P} {pb : Prob ℝ P E} {clk : Clock ℝ} {x : List P}
  {s s' : NMState ℝ P}

/-- The cost is quasiconvex along the curves Nelder-Mead searches: between two points of such a
curve it is nowhere greater than at both of them. -/
def QuasiconvexAlong (M : Mfd ℝ P E) (f : P → ℝ) : Prop :=
  ∀ x y a b t, a ≤ t → t ≤ b → f (M.retraction x (M.smul t (M.log x y))) ≤
    max (f (M.retraction x (M.smul a (M.log x y)))) (f (M.retraction x (M.smul b (M.log x y))))

/-- The curves Nelder-Mead searches start at the centroid and pass the worst vertex at time one. -/
def CurvesJoin (M : Mfd ℝ P E) : Prop :=
  ∀ x y, M.retraction x (M.smul 0 (M.log x y)) = x ∧ M.retraction x (M.smul 1 (M.log x y)) = y

/-- The coefficients with which an outside contraction lies between the centroid and the reflected
point and an inside contraction between the centroid and the worst vertex. -/
structure NMCoefficients (o : NMObj ℝ) : Prop where
  nonneg : 0 ≤ o.contraction
  le_one : o.contraction ≤ 1
  le_reflection : o.contraction ≤ o.reflection

/-- **C155** With a cost that is quasiconvex along the curves searched, the simplex shrinks only if
the centroid has a greater cost than every vertex it was computed from. -/
theorem C155_shrinkage (ho : NMCoefficients o) (hq : QuasiconvexAlong pb.M pb.cost)
    (hj : CurvesJoin pb.M) (hsort : SortsByCost sort)
    (hd : 0 < pb.M.dim) (hx : x.length = pb.M.dim + 1)
    (h : Reaches (nmStep o sort centroid pb clk) (nmInit sort pb x) s)
    (hst : nmStep o sort centroid pb clk s = .ok (.next s')) :
    ∃ xbar m rest worst, s.simplex.Perm (rest ++ [worst]) ∧
      (sort s.simplex).dropLast.map Prod.snd = rest.map Prod.snd ∧
      centroid (s.iteration + 1) (rest.map Prod.snd) = .ok xbar ∧
      nmMove o pb.cost pb.M xbar (sort s.simplex) = .ok m ∧ s'.simplex = m.simplex ∧
      (m.action = .shrinkage → ∀ v ∈ rest, pb.cost v.2 < pb.cost xbar) := by
  obtain ⟨xbar, m, l, best, second, worst, hs, hperm, hb, hse, hl, hc, hp, hcen, hm, hs', -⟩ :=
    nm_iteration hsort (fun _ => rfl) hd hx h hst
  refine ⟨xbar, m, l, worst, hperm, by rw [hs, List.dropLast_concat], hcen, hs ▸ hm, hs', fun hact => ?_⟩
  obtain ⟨m', hm', htab, -⟩ :=
    C18_nelderMead o pb.cost pb.M xbar (fun _ => rfl) best second worst l hb hse hl
      (fun _ _ => rfl) hp
  rw [hm'] at hm
  cases hm
  have hsm : second ∈ l := List.mem_of_getLast? hse
  have hls : ∀ v ∈ l, v.1 ≤ second.1 := by
    intro v hv
    obtain ⟨l', rfl⟩ : ∃ l', l = l' ++ [second] :=
      ⟨l.dropLast, (List.dropLast_append_getLast? second (by simpa using hse)).symm⟩
    rcases List.mem_append.1 hv with h | h
    · have := (List.pairwise_append.1 (List.pairwise_append.1 hp).1).2.2 v h second (by simp)
      simpa [PyNum.le] using this
    · simp at h
      rw [h]
  have hsw : second.1 ≤ worst.1 := by
    have := (List.pairwise_append.1 hp).2.2 second hsm worst (by simp)
    simpa [PyNum.le] using this
  have hw : worst.1 = pb.cost worst.2 := hc worst (by simp)
  have key : second.1 < pb.cost xbar := by
    by_contra hcon
    rw [not_lt] at hcon
    rw [hact] at htab
    obtain ⟨h0, h1⟩ := hj xbar worst.2
    cases htab with
    | shrinkOutside h1' h2' h3' =>
      have a1 : second.1 ≤ pb.cost (pb.M.retraction xbar (pb.M.smul (neg o.reflection)
          (pb.M.log xbar worst.2))) := by simpa [PyNum.lt] using h1'
      have a3 : pb.cost (pb.M.retraction xbar (pb.M.smul (neg o.reflection)
          (pb.M.log xbar worst.2))) < pb.cost (pb.M.retraction xbar (pb.M.smul (neg o.contraction)
          (pb.M.log xbar worst.2))) := by simpa [PyNum.le] using h3'
      have q := hq xbar worst.2 (neg o.reflection) 0 (neg o.contraction)
        (neg_le_neg ho.le_reflection) (neg_nonpos.2 ho.nonneg)
      rw [h0] at q
      rcases le_max_iff.1 q with q | q <;> linarith
    | shrinkInside h1' h2' =>
      have a2 : worst.1 < pb.cost (pb.M.retraction xbar (pb.M.smul o.contraction
          (pb.M.log xbar worst.2))) := by simpa [PyNum.le] using h2'
      have q := hq xbar worst.2 0 1 o.contraction ho.nonneg ho.le_one
      rw [h0, h1] at q
      rcases le_max_iff.1 q with q | q <;> linarith
  intro v hv
  rw [← hc v (List.mem_append_left _ hv)]
  exact lt_of_le_of_lt (hls v hv) key

end

/-! ### Flat spaces -/

section
variable {E : Type*} [AddCommGroup E] [Module ℝ E]

/-- A manifold that is a vector space. -/
structure Flat (M : Mfd ℝ E E) : Prop where
  retraction : ∀ x v, M.retraction x v = x + v
  log : ∀ x y, M.log x y = y - x
  smul : ∀ (a : ℝ) v, M.smul a v = a • v
  pairMean : ∀ x y, M.pairMean x y = midpoint ℝ x y

/-- The points are the vertices of a simplex: none lies in the affine hull of the others. -/
def Nondegenerate (l : List E) : Prop :=
  l.Nodup ∧ AffineIndependent ℝ ((↑) : {p | p ∈ l} → E)

variable {o : NMObj ℝ} {sort : List (ℝ × E) → List (ℝ × E)}
  {centroid : ℤ → List E → Except PyErr E} {pb : Prob ℝ E E} {clk : Clock ℝ} {x : List E}
  {s s' : NMState ℝ E}

theorem Flat.curve {M : Mfd ℝ E E} (hM : Flat M) (x y : E) (t : ℝ) :
    M.retraction x (M.smul t (M.log x y)) = AffineMap.lineMap x y t := by
  rw [hM.retraction, hM.smul, hM.log, AffineMap.lineMap_apply, vsub_eq_sub, vadd_eq_add, add_comm]

theorem Flat.curvesJoin {M : Mfd ℝ E E} (hM : Flat M) : CurvesJoin M := fun x y => by
  simp [hM.curve]

theorem Flat.quasiconvexAlong {M : Mfd ℝ E E} (hM : Flat M) {f : E → ℝ}
    (hf : QuasiconvexOn ℝ Set.univ f) : QuasiconvexAlong M f := by
  intro x y a b t hat htb
  simp only [hM.curve]
  have hc := hf (max (f (AffineMap.lineMap x y a)) (f (AffineMap.lineMap x y b)))
  have hcv := (hc.affine_preimage (AffineMap.lineMap x y : ℝ →ᵃ[ℝ] E)).ordConnected
  exact (hcv.out (x := a) (y := b) ⟨trivial, le_max_left _ _⟩ ⟨trivial, le_max_right _ _⟩
    ⟨hat, htb⟩).2

/-- **C155** On a vector space, with a quasiconvex cost and centroids in the convex hull of the
points they are computed from, Nelder-Mead never shrinks the simplex and no ordered cost ever
increases. -/
theorem C155_quasiconvex (hM : Flat pb.M) (ho : NMCoefficients o)
    (hf : QuasiconvexOn ℝ Set.univ pb.cost) (hsort : SortsByCost sort)
    (hcen : ∀ it pts xbar, centroid it pts = .ok xbar → xbar ∈ convexHull ℝ {p | p ∈ pts})
    (hd : 0 < pb.M.dim) (hx : x.length = pb.M.dim + 1)
    (h : Reaches (nmStep o sort centroid pb clk) (nmInit sort pb x) s)
    (hst : nmStep o sort centroid pb clk s = .ok (.next s')) :
    ∃ xbar m, centroid (s.iteration + 1) ((sort s.simplex).dropLast.map Prod.snd) = .ok xbar ∧
      nmMove o pb.cost pb.M xbar (sort s.simplex) = .ok m ∧ s'.simplex = m.simplex ∧
      m.action ≠ .shrinkage ∧ ∀ c : ℝ, s.simplex.countP (fun v => decide (v.1 ≤ c)) ≤
        s'.simplex.countP (fun v => decide (v.1 ≤ c)) := by
  classical
  obtain ⟨xbar, m, rest, worst, hp, hl, hxb, hm, hs', hsh⟩ :=
    C155_shrinkage ho (hM.quasiconvexAlong hf) hM.curvesJoin hsort hd hx h hst
  have hno : m.action ≠ .shrinkage := by
    intro hact
    have hlt := hsh hact
    have hlen := hp.length_eq
    rw [nm_length hsort h, hx, List.length_append, List.length_singleton] at hlen
    obtain ⟨w, hw, hwm⟩ : ∃ w ∈ rest, ∀ v ∈ rest, pb.cost v.2 ≤ pb.cost w.2 := by
      have hne : rest.toFinset.Nonempty := by
        rw [List.toFinset_nonempty_iff]
        rintro rfl
        simp at hlen
        omega
      obtain ⟨w, hw, hm⟩ := rest.toFinset.exists_max_image (fun v => pb.cost v.2) hne
      exact ⟨w, by simpa using hw, fun v hv => hm v (by simpa using hv)⟩
    have hsub : convexHull ℝ {p | p ∈ rest.map Prod.snd} ⊆
        {p | p ∈ Set.univ ∧ pb.cost p ≤ pb.cost w.2} := by
      refine convexHull_min ?_ (hf _)
      rintro p hp
      obtain ⟨v, hv, rfl⟩ := List.mem_map.1 hp
      exact ⟨trivial, hwm v hv⟩
    exact absurd (hsub (hcen _ _ _ hxb)).2 (not_le.2 (hlt w hw))
  obtain ⟨xbar', m', hx', hm', hs'', hord⟩ := C155_ordered_costs hsort (fun _ => rfl) hd hx h hst
  rw [hl, hxb] at hx'
  cases hx'
  rw [hm] at hm'
  cases hm'
  exact ⟨xbar, m, by rw [hl, hxb], hm, hs', hno, fun c => hord hno c rfl⟩

/-! ### The simplex stays a simplex -/

theorem nondegenerate_of_perm {l l' : List E} (hp : l.Perm l') (h : Nondegenerate l) :
    Nondegenerate l' := by
  refine ⟨hp.nodup_iff.1 h.1, ?_⟩
  have : {p | p ∈ l'} = {p | p ∈ l} := by ext p; exact hp.mem_iff.symm
  rw [this]
  exact h.2

theorem nondegenerate_map {l : List E} (e : E ≃ᵃ[ℝ] E) (h : Nondegenerate l) :
    Nondegenerate (l.map e) := by
  refine ⟨h.1.map e.injective, ?_⟩
  have : {p | p ∈ l.map e} = e '' {p | p ∈ l} := by ext p; simp
  rw [this]
  exact e.affineIndependent_set_of_eq_iff.2 h.2

theorem nondegenerate_concat {l : List E} {w : E} :
    Nondegenerate (l ++ [w]) ↔ Nondegenerate l ∧ w ∉ affineSpan ℝ {p | p ∈ l} := by
  constructor
  · rintro ⟨hn, ha⟩
    have hnl := List.nodup_append.1 hn
    have hwl : w ∉ l := fun h => hnl.2.2 w h w (by simp) rfl
    refine ⟨⟨hnl.1, ha.mono fun p hp => List.mem_append_left _ hp⟩, ?_⟩
    have := ha.notMem_affineSpan_sdiff ⟨w, by simp⟩ Set.univ
    have e : ((↑) : {p | p ∈ l ++ [w]} → E) '' (Set.univ \ {⟨w, by simp⟩}) = {p | p ∈ l} := by
      ext p
      constructor
      · rintro ⟨⟨q, hq⟩, hne, rfl⟩
        rcases List.mem_append.1 hq with h | h
        · exact h
        · exact absurd (Subtype.ext (List.mem_singleton.1 h)) hne.2
      · intro hp
        refine ⟨⟨p, List.mem_append_left _ hp⟩, ⟨trivial, fun h => hwl ?_⟩, rfl⟩
        have := congrArg Subtype.val (Set.mem_singleton_iff.1 h)
        simp only at this
        rwa [← this]
    rwa [e] at this
  · rintro ⟨⟨hn, ha⟩, hw⟩
    have hwl : w ∉ l := fun h => hw (subset_affineSpan ℝ _ h)
    refine ⟨List.nodup_append.2 ⟨hn, by simp, fun a ha b hb => ?_⟩, ?_⟩
    · rw [List.mem_singleton.1 hb]
      rintro rfl
      exact hwl ha
    · refine AffineIndependent.affineIndependent_of_notMem_span (i := ⟨w, by simp⟩) ?_ ?_
      · let f : {y : {p | p ∈ l ++ [w]} // y ≠ ⟨w, by simp⟩} ↪ {p | p ∈ l} :=
          ⟨fun y => ⟨y.1.1, by
            rcases List.mem_append.1 y.1.2 with h | h
            · exact h
            · exact absurd (Subtype.ext (List.mem_singleton.1 h)) y.2⟩,
           fun a b hab => Subtype.ext (Subtype.ext (by simpa using hab))⟩
        exact ha.comp_embedding f
      · refine fun h => hw (affineSpan_mono ℝ ?_ h)
        rintro p ⟨⟨q, hq⟩, hne, rfl⟩
        rcases List.mem_append.1 hq with h | h
        · exact h
        · exact absurd (Subtype.ext (List.mem_singleton.1 h)) hne

theorem lineMap_notMem {S : AffineSubspace ℝ E} {x w : E} (hx : x ∈ S) (hw : w ∉ S) {t : ℝ}
    (ht : t ≠ 0) : AffineMap.lineMap x w t ∉ S := by
  intro h
  refine hw ?_
  have := AffineMap.lineMap_mem t⁻¹ hx h
  rwa [AffineMap.lineMap_lineMap_right, inv_mul_cancel₀ ht, AffineMap.lineMap_apply_one] at this

/-- **C155** On a vector space, if the coefficients are not zero and every centroid lies in the
affine hull of the points it is computed from, a simplex stays a simplex: no vertex ever lies in the
affine hull of the others, whatever the cost. -/
theorem C155_nondegenerate (hM : Flat pb.M) (hr : o.reflection ≠ 0) (he : o.expansion ≠ 0)
    (hc : o.contraction ≠ 0) (hsort : SortsByCost sort)
    (hcen : ∀ it pts xbar, centroid it pts = .ok xbar → xbar ∈ affineSpan ℝ {p | p ∈ pts})
    (hd : 0 < pb.M.dim) (hx : x.length = pb.M.dim + 1) (hxn : Nondegenerate x)
    (h : Reaches (nmStep o sort centroid pb clk) (nmInit sort pb x) s) :
    Nondegenerate (s.simplex.map Prod.snd) := by
  refine (h.invariant (fun s => Reaches (nmStep o sort centroid pb clk) (nmInit sort pb x) s ∧
    Nondegenerate (s.simplex.map Prod.snd)) ?_ ⟨.refl, ?_⟩).2
  · rintro t t' ⟨ht, hn⟩ hst
    refine ⟨ht.tail hst, ?_⟩
    obtain ⟨xbar, m, l, best, second, worst, hs, hperm, hb, hse, hl, hco, hp, hxb, hm, hs', -⟩ :=
      nm_iteration hsort (fun _ => rfl) hd hx ht hst
    obtain ⟨m', hm', -, -, hrep, hshr⟩ :=
      C18_nelderMead o pb.cost pb.M xbar (fun _ => rfl) best second worst l hb hse hl
        (fun _ _ => rfl) hp
    rw [hm'] at hm
    cases hm
    have hn' := nondegenerate_of_perm (hperm.map Prod.snd) hn
    rw [hs']
    by_cases hact : m.action = .shrinkage
    · rw [hshr hact]
      obtain ⟨l', rfl⟩ : ∃ l', l = best :: l' := by
        cases l with
        | nil => simp at hb
        | cons b t => simp at hb; exact ⟨t, by rw [hb]⟩
      have := nondegenerate_map (AffineEquiv.homothetyUnitsMulHom best.2
        (Units.mk0 (1 / 2 : ℝ) (by norm_num))) hn'
      simpa [Function.comp_def, homothety_inv_two, hM.pairMean] using this
    · rw [(hrep hact).1]
      simp only [List.map_append, List.map_cons, List.map_nil] at hn' ⊢
      rw [nondegenerate_concat] at hn' ⊢
      refine ⟨hn'.1, ?_⟩
      rw [hM.curve]
      refine lineMap_notMem (hcen _ _ _ hxb) hn'.2 ?_
      cases hma : m.action <;> simp [nmCoefficient, PyNum.neg, hr, he, hc]
      exact absurd hma hact
  · refine nondegenerate_of_perm ?_ hxn
    have := ((hsort (x.map fun p => (pb.cost p, p))).1.map Prod.snd).symm
    simpa [nmInit, Function.comp_def] using this


/-- The vector spaces of pymanopt. -/
theorem euclidean_flat {ι 𝕜 : Type*} [RCLike 𝕜] [Fintype ι] (dim : ℤ) :
    Flat (euclideanMfd dim : Mfd ℝ (ι → 𝕜) (ι → 𝕜)) where
  retraction _ _ := rfl
  log _ _ := rfl
  smul _ _ := rfl
  pairMean x y := by
    rw [midpoint_eq_smul_add, invOf_eq_inv, ← one_div]
    rfl

theorem symmetric_flat {κ n : Type*} [Fintype κ] [Fintype n] (dim : ℤ) :
    Flat (symmetricMfd dim : Mfd ℝ (Stack κ n n ℝ) (Stack κ n n ℝ)) where
  retraction _ _ := rfl
  log _ _ := rfl
  smul _ _ := rfl
  pairMean x y := by
    rw [midpoint_eq_smul_add, invOf_eq_inv, ← one_div]
    rfl


end

/-! ### Examples -/

theorem real_flat : Flat realMfd where
  retraction _ _ := rfl
  log _ _ := rfl
  smul _ _ := rfl
  pairMean x y := by
    rw [midpoint_eq_smul_add, invOf_eq_inv]
    change (x + y) / 2 = _
    rw [smul_eq_mul]
    ring

/-- `NelderMead()` on a manifold of dimension one. -/
noncomputable def defaultNM : NMObj ℝ :=
  { maxTime := 1000, minGradientNorm := 1 / 10 ^ 6, minStepSize := 1 / 10 ^ 10, verbosity := 0,
    logVerbosity := 0, maxCostEvaluations := some 1000, maxIterations := some 2000,
    reflection := 1, expansion := 2, contraction := 1 / 2 }

theorem defaultNM_coefficients : NMCoefficients defaultNM :=
  ⟨by norm_num [defaultNM], by norm_num [defaultNM], by norm_num [defaultNM]⟩

/-- A problem on the line without derivatives. -/
noncomputable def realCost (f : ℝ → ℝ) : Prob ℝ ℝ ℝ :=
  { M := realMfd, cost := f, grad := fun _ => 0, hess := fun _ v => v, precon := fun _ v => v }

/-- The centroid of one point. -/
def firstPoint (_ : ℤ) : List ℝ → Except PyErr ℝ
  | [] => .error .indexError
  | p :: _ => .ok p

theorem firstPoint_hull (it : ℤ) (pts : List ℝ) (xbar : ℝ) (h : firstPoint it pts = .ok xbar) :
    xbar ∈ {p | p ∈ pts} := by
  cases pts with
  | nil => simp [firstPoint] at h
  | cons p l => simp [firstPoint] at h; simp [h]

/-- A clock that stands still. -/
def restingClock : Clock ℝ := ⟨0, fun _ _ => 0, fun _ _ => 0, fun _ => 0, 0⟩

/-- A first iteration from the simplex `{2, 3}` exists, whatever the cost. -/
theorem line_advances (f : ℝ → ℝ) {sort : List (ℝ × ℝ) → List (ℝ × ℝ)} (hsort : SortsByCost sort) :
    ∃ s', nmStep defaultNM sort firstPoint (realCost f) restingClock
      (nmInit sort (realCost f) [2, 3]) = .ok (.next s') := by
  refine nm_advances hsort (fun _ => rfl) (by norm_num [realCost, realMfd])
    (by simp [realCost, realMfd]) .refl ?_ ?_
  · have h1 : (PyNum.le (PyNum.add restingClock.start defaultNM.maxTime)
      (restingClock.check2 1 0)) = false := by
      simp [PyNum.le, PyNum.add, restingClock, defaultNM]
    simp [checkStop, nmInit, NMObj.cfg, realCost, realMfd]
    simp [defaultNM, PyNum.le, PyNum.add, restingClock]
  · intro it pts hne
    cases pts with
    | nil => exact absurd rfl hne
    | cons p l => exact ⟨p, rfl⟩

theorem square_quasiconvex : QuasiconvexOn ℝ Set.univ fun t : ℝ => t ^ 2 :=
  (even_two.convexOn_pow (𝕜 := ℝ)).quasiconvexOn

/-- The hypotheses are met by the cost `t ^ 2` on the line and the simplex `{2, 3}`. -/
example {sort : List (ℝ × ℝ) → List (ℝ × ℝ)} (hsort : SortsByCost sort) :
    ∃ s' xbar m, nmStep defaultNM sort firstPoint (realCost fun t => t ^ 2) restingClock
      (nmInit sort (realCost fun t => t ^ 2) [2, 3]) = .ok (.next s') ∧
      nmMove defaultNM (fun t => t ^ 2) realMfd xbar
        (sort (nmInit sort (realCost fun t => t ^ 2) [2, 3]).simplex) = .ok m ∧
      m.action ≠ .shrinkage ∧ Nondegenerate (s'.simplex.map Prod.snd) := by
  obtain ⟨s', hs'⟩ := line_advances (fun t => t ^ 2) hsort
  obtain ⟨xbar, m, -, hm, -, hno, -⟩ := C155_quasiconvex (pb := realCost fun t => t ^ 2) real_flat
    defaultNM_coefficients square_quasiconvex hsort
    (fun it pts xbar h => subset_convexHull ℝ _ (firstPoint_hull it pts xbar h))
    (by norm_num [realCost, realMfd]) (by simp [realCost, realMfd]) .refl hs'
  refine ⟨s', xbar, m, hs', hm, hno, ?_⟩
  refine C155_nondegenerate (pb := realCost fun t => t ^ 2) real_flat (by norm_num [defaultNM])
    (by norm_num [defaultNM]) (by norm_num [defaultNM]) hsort
    (fun it pts xbar h => subset_affineSpan ℝ _ (firstPoint_hull it pts xbar h))
    (by norm_num [realCost, realMfd]) (by simp [realCost, realMfd]) ?_ (Reaches.refl.tail hs')
  have h2 : Nondegenerate ([2] : List ℝ) := by
    refine ⟨by simp, ?_⟩
    have : Subsingleton {p : ℝ | p ∈ [(2 : ℝ)]} :=
      ⟨fun a b => Subtype.ext (by
        have ha := a.2
        have hb := b.2
        simp only [Set.mem_ofPred_eq, List.mem_singleton] at ha hb
        rw [ha, hb])⟩
    exact affineIndependent_of_subsingleton ℝ _
  refine (nondegenerate_concat (l := [(2 : ℝ)]) (w := 3)).2 ⟨h2, ?_⟩
  have : {p : ℝ | p ∈ [(2 : ℝ)]} = {2} := by ext; simp
  rw [this, AffineSubspace.mem_affineSpan_singleton]
  norm_num

/-- A cost that is not quasiconvex. -/
noncomputable def bumpyCost (t : ℝ) : ℝ := if t = 2 then 0 else if t = 3 then 1 else 5

/-- **C155** Without quasiconvexity a shrinkage can increase costs: here the simplex `{2, 3}` with
costs `0` and `1` becomes `{2, 5 / 2}` with costs `0` and `5`. -/
theorem C155_shrinkage_can_increase {sort : List (ℝ × ℝ) → List (ℝ × ℝ)}
    (hsort : SortsByCost sort) :
    ∃ s', nmStep defaultNM sort firstPoint (realCost bumpyCost) restingClock
        (nmInit sort (realCost bumpyCost) [2, 3]) = .ok (.next s') ∧
      (nmInit sort (realCost bumpyCost) [2, 3]).simplex.countP (fun v => decide (v.1 ≤ 1)) = 2 ∧
      s'.simplex.countP (fun v => decide (v.1 ≤ 1)) = 1 := by
  obtain ⟨s', hs'⟩ := line_advances bumpyCost hsort
  refine ⟨s', hs', ?_, ?_⟩
  · rw [nmInit, (hsort _).1.countP_eq]
    simp [realCost, bumpyCost]
  · obtain ⟨xbar, m, l, best, second, worst, hs, hperm, hb, hse, hl, hco, hp, hxb, hm, hsm, -⟩ :=
      nm_iteration hsort (fun _ => rfl) (by norm_num [realCost, realMfd])
        (by simp [realCost, realMfd]) .refl hs'
    have hl1 : l.length = 1 := hl
    obtain ⟨a, rfl⟩ := List.length_eq_one_iff.1 hl1
    have hper : [a, worst].Perm [((0 : ℝ), (2 : ℝ)), (1, 3)] := by
      refine hperm.symm.trans ((hsort _).1.trans ?_)
      simp [realCost, bumpyCost]
    have hle : a.1 ≤ worst.1 := by simpa [PyNum.le] using hp
    have haw : a = (0, 2) ∧ worst = (1, 3) := by
      have hw : worst ∈ [((0 : ℝ), (2 : ℝ)), (1, 3)] := hper.mem_iff.1 (by simp)
      have ha : a ∈ [((0 : ℝ), (2 : ℝ)), (1, 3)] := hper.mem_iff.1 (by simp)
      have hnd : [a, worst].Nodup := hper.nodup_iff.2 (by simp)
      simp only [List.mem_cons, List.not_mem_nil, or_false] at hw ha
      rcases ha with rfl | rfl <;> rcases hw with rfl | rfl
      · simp at hnd
      · exact ⟨rfl, rfl⟩
      · norm_num at hle
      · simp at hnd
    obtain ⟨rfl, rfl⟩ := haw
    have hxb2 : xbar = 2 := by simpa [firstPoint] using hxb.symm
    subst hxb2
    obtain ⟨m', hm', htab, -, -, hshr⟩ :=
      C18_nelderMead defaultNM (realCost bumpyCost).cost (realCost bumpyCost).M 2 (fun _ => rfl)
        best second (1, 3) _ hb hse hl (fun _ _ => rfl) hp
    rw [hm'] at hm
    cases hm
    have hpt : ∀ c : ℝ, (realCost bumpyCost).M.retraction 2 ((realCost bumpyCost).M.smul c
        ((realCost bumpyCost).M.log 2 3)) = 2 + c := by
      intro c
      change (2 : ℝ) + c * (3 - 2) = _
      ring
    simp only [hpt] at htab
    have hbest : best = (0, 2) := by simpa using hb.symm
    have hsec : second = (0, 2) := by simpa using hse.symm
    have e1 : (realCost bumpyCost).cost (2 + neg defaultNM.reflection) = 5 := by
      norm_num [realCost, bumpyCost, defaultNM, PyNum.neg]
    have e2 : (realCost bumpyCost).cost (2 + defaultNM.contraction) = 5 := by
      norm_num [realCost, bumpyCost, defaultNM]
    rw [e1, e2, hbest, hsec] at htab
    have hact : m.action = .shrinkage := by
      cases hma : m.action <;> rw [hma] at htab
      · cases htab with | reflection h1 h2 => norm_num [PyNum.lt] at h2
      · cases htab with | expansion h1 h2 => norm_num [PyNum.lt] at h1
      · cases htab with | failedExpansion h1 h2 => norm_num [PyNum.lt] at h1
      · cases htab with | outside h1 h2 h3 => norm_num [PyNum.lt] at h2
      · cases htab with | inside h1 h2 => norm_num [PyNum.le] at h2
    rw [hsm, hshr hact, hbest]
    have e3 : (realCost bumpyCost).cost ((realCost bumpyCost).M.pairMean 2 3) = 5 := by
      norm_num [realCost, bumpyCost, realMfd]
    simp only [List.cons_append, List.nil_append, List.tail_cons, List.map_cons, List.map_nil, e3]
    norm_num [List.countP_cons]

/-! ### The centroid is not exact -/

/-- The result of a run is some point other than `p`. -/
def pointIsNot (p : ℚ) : Except PyErr (Result Q Q × Option Q) → Bool
  | .ok (r, _) => match r.point with
    | .npy q => decide (q ≠ p)
    | _ => false
  | .error _ => false

/-- **C155** The centroids `compute_centroid` returns need not lie in the hull of the points: on the
line, started from `3`, the centroid of the single point `0` comes out different from `0`. -/
theorem C155_centroid_outside_hull : ∃ q : ℚ, q ≠ 0 ∧
    CentroidRuns lineMfd (fun a b => toNp (abs (sub a b))) stillClock (.npy 3) [.npy 0]
      (.ok (.npy q)) := by
  have h : checkFuel (sdStep centroidCfg (backTracking Q Q centroidSearch)
      (centroidProb lineMfd (fun a b => toNp (abs (sub a b))) [.npy 0]) stillClock) 20
      (sdInit centroidCfg (.npy 3) none) (pointIsNot 0) = true := by decide +kernel
  obtain ⟨r, hr, hp⟩ := exists_of_checkFuel h
  cases r with
  | error e => cases hp
  | ok r =>
    obtain ⟨r, mem⟩ := r
    simp only [pointIsNot] at hp
    split at hp
    · rename_i q hq
      exact ⟨q, of_decide_eq_true hp, .ok (r, mem), hr, congrArg Except.ok hq.symm⟩
    · cases hp

end Verif.Geo
