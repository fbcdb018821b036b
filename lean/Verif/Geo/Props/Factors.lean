/-
C165: the order of the factors of a product does not matter, and a product of one manifold behaves
like this manifold.
-/
import Verif.Opt.Props.EquivarianceFree
import Verif.Geo.Props.Rates
import Verif.Core.Props.Product

namespace Verif.Geo
open Matrix Verif.Opt Verif.Core

/-! ## Specification -/

section spec
variable {P E P' E' : Type*}

/-- The same line searcher of the package, on two manifolds. -/
def SameSearcher (ls : LineSearcher ℝ P E (Option ℝ)) (ls' : LineSearcher ℝ P' E' (Option ℝ)) :
    Prop :=
  (∃ c, ls = backTracking P E c ∧ ls' = backTracking P' E' c) ∨
    ∃ c, ls = adaptive P E c ∧ ls' = adaptive P' E' c

/-- Every run on `pb'` from the image of `x` is the image of a run on `pb` from `x`, and the other
way round: points and vectors correspond, every number is the same. -/
structure GradientRuns (φ : P → P') (ψ : E → E') (pb : Prob ℝ P E) (pb' : Prob ℝ P' E') : Prop where
  steepestDescent : ∀ (cfg : Cfg ℝ) ls ls' (clk : Clock ℝ) (x : P) (mem : Option ℝ) r',
    SameSearcher ls ls' → (SDRuns cfg ls' pb' clk (φ x) mem r' ↔
      ∃ r, SDRuns cfg ls pb clk x mem r ∧ r' = r.map fun q => (q.1.mapPoint φ, q.2))
  conjugateGradient : ∀ (cfg : Cfg ℝ) (rule : BetaRule) (orth : ℝ) ls ls' (clk : Clock ℝ) (x : P)
    (mem : Option ℝ) r', SameSearcher ls ls' → (CGRuns cfg rule orth ls' pb' clk (φ x) mem r' ↔
      ∃ r, CGRuns cfg rule orth ls pb clk x mem r ∧
        r' = r.map fun q => (q.1.mapPoint φ, q.2.1, mapSearches φ (fun _ => ψ) q.2.2))

/-- The same for the optimizer that uses the Hessian; random vectors correspond. -/
def HessianRuns (φ : P → P') (ψ : E → E') (pb : Prob ℝ P E) (pb' : Prob ℝ P' E') : Prop :=
  ∀ (cfg : Cfg ℝ) (c : TRCfg ℝ) (clk : Clock ℝ) (eta0 : ℤ → E) (mininner : ℤ)
    (maxinner : Option ℤ) (typicalDist DeltaBar Delta0 : Option ℝ) (x : P) r',
    TRRuns cfg c pb' clk (fun k => ψ (eta0 k)) mininner maxinner typicalDist DeltaBar Delta0 (φ x) r' ↔
      ∃ r, TRRuns cfg c pb clk eta0 mininner maxinner typicalDist DeltaBar Delta0 x r ∧
        r' = r.map fun q => (q.1.mapPoint φ, q.2.map fun q => (φ q.1, q.2))

/-- The same for the optimizers that use the cost only, and for the centroid of some points; what
is drawn at random corresponds. -/
structure CostRuns (φ : P → P') (ψ : E → E') (pb : Prob ℝ P E) (pb' : Prob ℝ P' E') : Prop where
  centroid : ∀ (dist : P → P → ℝ) (dist' : P' → P' → ℝ) (clk : Clock ℝ) (draw : P)
    (points : List P) r', (∀ x y, dist' (φ x) (φ y) = dist x y) →
    (CentroidRuns pb'.M dist' clk (φ draw) (points.map φ) r' ↔
      ∃ r, CentroidRuns pb.M dist clk draw points r ∧ r' = r.map φ)
  nelderMead : ∀ (o : NMObj ℝ) sort sort' (centroid : ℤ → List P → Except PyErr P)
    (centroid' : ℤ → List P' → Except PyErr P') (clk : Clock ℝ) (init : InitArg P) r',
    (∀ l, (sort l).Perm l) → SortTranslates φ sort sort' →
    (∀ it pts, centroid' it (pts.map φ) = (centroid it pts).map φ) →
    (NMRuns o sort' centroid' pb' clk (init.map φ) r' ↔
      ∃ r, NMRuns o sort centroid pb clk init r ∧ r' = r.map (Result.mapPoint φ))
  particleSwarm : ∀ (o : PSOObj ℝ) (rnd : PSORand ℝ P E) (rnd' : PSORand ℝ P' E') (clk : Clock ℝ)
    (init : InitArg P) r', (∀ i x, rnd'.velocity i (φ x) = ψ (rnd.velocity i x)) →
    rnd'.u1 = rnd.u1 → rnd'.u2 = rnd.u2 →
    (PSORuns o rnd' pb' clk (init.map φ) r' ↔
      ∃ r, PSORuns o rnd pb clk init r ∧
        r' = r.map fun q => (q.1.mapPoint φ, q.2.1.map φ, q.2.2.map φ))

variable {k : ℕ} {E : Fin k → Type*}

/-- The components of a family in another order. -/
def reorder (e : Fin k ≃ Fin k) (x : ∀ i, E i) : ∀ i, E (e i) := fun i => x (e i)

/-- A cost with its Euclidean derivatives, and the same as a function of the arguments in another
order. -/
structure Reordered (e : Fin k ≃ Fin k) (cost : (∀ i, E i) → ℝ) (egrad : (∀ i, E i) → ∀ i, E i)
    (ehess : (∀ i, E i) → (∀ i, E i) → ∀ i, E i) (cost' : (∀ i, E (e i)) → ℝ)
    (egrad' : (∀ i, E (e i)) → ∀ i, E (e i))
    (ehess' : (∀ i, E (e i)) → (∀ i, E (e i)) → ∀ i, E (e i)) : Prop where
  cost : ∀ x, cost' (reorder e x) = cost x
  egrad : ∀ x i, egrad' (reorder e x) i = egrad x (e i)
  ehess : ∀ x v i, ehess' (reorder e x) (reorder e v) i = ehess x v (e i)

end spec

/-! ## From translations to runs -/

section runs
variable {P E P' E' : Type*} {φ : P → P'} {ψ : E → E'} {pb : Prob ℝ P E} {pb' : Prob ℝ P' E'}

private theorem gradientRuns
    (h : Translates φ (fun _ => ψ) (fun _ => True) (fun _ _ => True) pb pb')
    (hi : InnerAnywhere (fun _ => ψ) φ (fun _ => True) (fun _ _ => True) pb.M pb'.M) :
    GradientRuns φ ψ pb pb' := by
  have hs : ∀ ls ls', SameSearcher ls ls' →
      SearchTranslates ls ls' φ (fun _ => ψ) (fun _ => True) (fun _ _ => True) pb pb' := by
    rintro _ _ (⟨c, rfl, rfl⟩ | ⟨c, rfl, rfl⟩)
    exacts [C133_backTracking h c, C133_adaptive h c]
  exact ⟨fun _ _ _ _ _ _ _ hls => C133_steepestDescent h (hs _ _ hls) trivial,
    fun _ _ _ _ _ _ _ _ _ hls => C133_conjugateGradient h (fun _ => hi) (hs _ _ hls) trivial⟩

private theorem hessianRuns
    (h : Translates φ (fun _ => ψ) (fun _ => True) (fun _ _ => True) pb pb')
    (hH : ∀ x v, pb'.hess (φ x) (ψ v) = ψ (pb.hess x v)) : HessianRuns φ ψ pb pb' :=
  fun _ _ _ _ _ _ _ _ _ _ _ =>
    C133_trustRegions h ⟨fun _ _ _ _ => trivial, fun x v _ _ => hH x v⟩
      (fun _ _ _ _ _ _ _ => ⟨trivial, rfl⟩) trivial

private theorem allOn (init : InitArg P) : init.AllOn fun _ => True := by
  cases init <;> simp [InitArg.AllOn]

private theorem costRuns
    (h : Translates φ (fun _ => ψ) (fun _ => True) (fun _ _ => True) pb pb')
    (hlog : ∀ x y, pb'.M.log (φ x) (φ y) = ψ (pb.M.log x y))
    (hmean : ∀ x y, pb'.M.pairMean (φ x) (φ y) = φ (pb.M.pairMean x y)) : CostRuns φ ψ pb pb' := by
  have hl : TranslatesLog φ (fun _ => ψ) (fun _ => True) (fun _ _ => True) pb.M pb'.M :=
    ⟨fun _ _ _ _ => trivial, fun x y _ _ => hlog x y⟩
  exact ⟨fun _ _ _ _ _ _ hd => C133_centroid h hl (fun x y _ _ => hd x y) trivial fun _ _ => trivial,
    fun _ _ _ _ _ _ _ _ hp hs hc => C133_nelderMead h hl
      ⟨fun _ _ _ _ => trivial, fun x y _ _ => hmean x y⟩ hp hs (fun _ _ _ _ _ => trivial)
      (fun it pts _ => hc it pts) (allOn _),
    fun _ _ _ _ _ _ hv h1 h2 => C133_particleSwarm h hl (fun i x _ => ⟨trivial, hv i x⟩) h1 h2
      (allOn _)⟩

end runs

/-! ## The order of the factors -/

section order
variable {k : ℕ} {E : Fin k → Type*} {Ms : ∀ i, Mfd ℝ (E i) (E i)} {e2rg : ∀ i, E i → E i → E i}
  {e2rh : ∀ i, E i → E i → E i → E i → E i} {embed : ∀ i, E i → E i → E i} {e : Fin k ≃ Fin k}
  {cost : (∀ i, E i) → ℝ} {egrad : (∀ i, E i) → ∀ i, E i}
  {ehess : (∀ i, E i) → (∀ i, E i) → ∀ i, E i} {cost' : (∀ i, E (e i)) → ℝ}
  {egrad' : (∀ i, E (e i)) → ∀ i, E (e i)}
  {ehess' : (∀ i, E (e i)) → (∀ i, E (e i)) → ∀ i, E (e i)}

/-- **C165** (the order of the factors): on the product of the same manifolds in another order, for
the same cost as a function of its arguments in this order, all optimizers do the same.  The
factors are arbitrary, tangent or not, and so are the points. -/
theorem C165_reorder (h : Reordered e cost egrad ehess cost' egrad' ehess') :
    let pb := productProb Ms e2rg e2rh embed cost egrad ehess
    let pb' := productProb (fun i => Ms (e i)) (fun i => e2rg (e i)) (fun i => e2rh (e i))
      (fun i => embed (e i)) cost' egrad' ehess'
    GradientRuns (reorder e) (reorder e) pb pb' ∧ HessianRuns (reorder e) (reorder e) pb pb' ∧
      CostRuns (reorder e) (reorder e) pb pb' := by
  intro pb pb'
  have hin : ∀ x v w, pb'.M.inner (reorder e x) (reorder e v) (reorder e w) = pb.M.inner x v w :=
    fun x v w => Equiv.sum_comp e fun i => (Ms i).inner (x i) (v i) (w i)
  have ht : Translates (reorder e) (fun _ => reorder e) (fun _ => True) (fun _ _ => True) pb pb' :=
    { closed := ⟨⟨by simp, by simp, by simp, by simp, by simp, by simp, by simp⟩, by simp, by simp⟩
      sub_tan := by simp
      dim := Equiv.sum_comp e fun i => (Ms i).dim
      norm := fun x v _ _ => congrArg Real.sqrt (hin x v v)
      inner := fun x v w _ _ _ => hin x v w
      retraction := fun _ _ _ _ => rfl
      transport := fun _ _ _ _ _ _ => rfl
      zeroVector := fun _ _ => rfl
      toTangent := fun _ _ _ _ => rfl
      add := fun _ _ _ _ _ _ => rfl
      sub := fun _ _ _ _ _ _ => rfl
      neg := fun _ _ _ _ => rfl
      smul := fun _ _ _ _ _ => rfl
      cost := fun x _ => h.cost x
      grad := fun x _ => funext fun i => congrArg (e2rg (e i) (x (e i))) (h.egrad x i)
      precon := fun _ _ _ _ => rfl }
  refine ⟨gradientRuns ht fun x _ v w _ _ _ _ => hin x v w, hessianRuns ht fun x v => ?_,
    costRuns ht (fun _ _ => rfl) fun _ _ => rfl⟩
  funext i
  change e2rh (e i) (x (e i)) (egrad' (reorder e x) i)
    (ehess' (reorder e x) (reorder e fun i => embed i (x i) (v i)) i) (v (e i)) = _
  rw [h.egrad, h.ehess]
  rfl

end order

/-! ## Products of one manifold -/

section single
variable {E : Type*} {M : Mfd ℝ E E} {e2rg : E → E → E} {e2rh : E → E → E → E → E}
  {embed : E → E → E} {cost : E → ℝ} {egrad : E → E} {ehess : E → E → E}

/-- The problem on the product of one manifold: points and vectors are lists of length one, and so
are the derivatives. `Product` does not override `embedding`. -/
noncomputable def singleProb (M : Mfd ℝ E E) (e2rg : E → E → E) (e2rh : E → E → E → E → E)
    (cost : E → ℝ) (egrad : E → E) (ehess : E → E → E) : Prob ℝ (Fin 1 → E) (Fin 1 → E) :=
  productProb (fun _ => M) (fun _ => e2rg) (fun _ => e2rh) (fun _ _ v => v) (fun x => cost (x 0))
    (fun x _ => egrad (x 0)) fun x v _ => ehess (x 0) (v 0)

/-- The norm is the root of the inner product of a vector with itself. -/
def RootNorm (M : Mfd ℝ E E) : Prop := ∀ x v, M.norm x v = Real.sqrt (M.inner x v v)

/-- **C165** (products of one manifold): all optimizers do the same as on the manifold itself; the
one that uses Hessians if the manifold does not override `embedding`. -/
theorem C165_single (hn : RootNorm M) :
    let pb := arrayProb M e2rg e2rh embed cost egrad ehess
    let pb' := singleProb M e2rg e2rh cost egrad ehess
    GradientRuns (fun x _ => x) (fun v _ => v) pb pb' ∧
      ((∀ x v, embed x v = v) → HessianRuns (fun x _ => x) (fun v _ => v) pb pb') ∧
      CostRuns (fun x _ => x) (fun v _ => v) pb pb' := by
  intro pb pb'
  have hin : ∀ x v w, pb'.M.inner (fun _ => x) (fun _ => v) (fun _ => w) = pb.M.inner x v w :=
    fun x v w => Fin.sum_univ_one fun _ => M.inner x v w
  have ht : Translates (fun x (_ : Fin 1) => x) (fun _ v (_ : Fin 1) => v) (fun _ => True)
      (fun _ _ => True) pb pb' :=
    { closed := ⟨⟨by simp, by simp, by simp, by simp, by simp, by simp, by simp⟩, by simp, by simp⟩
      sub_tan := by simp
      dim := Fin.sum_univ_one fun _ => M.dim
      norm := fun x v _ _ => (congrArg Real.sqrt (hin x v v)).trans (hn x v).symm
      inner := fun x v w _ _ _ => hin x v w
      retraction := fun _ _ _ _ => rfl
      transport := fun _ _ _ _ _ _ => rfl
      zeroVector := fun _ _ => rfl
      toTangent := fun _ _ _ _ => rfl
      add := fun _ _ _ _ _ _ => rfl
      sub := fun _ _ _ _ _ _ => rfl
      neg := fun _ _ _ _ => rfl
      smul := fun _ _ _ _ _ => rfl
      cost := fun _ _ => rfl
      grad := fun _ _ => rfl
      precon := fun _ _ _ _ => rfl }
  refine ⟨gradientRuns ht fun x _ v w _ _ _ _ => hin x v w, fun he => hessianRuns ht fun x v => ?_,
    costRuns ht (fun _ _ => rfl) fun _ _ => rfl⟩
  funext i
  change e2rh x (egrad x) (ehess x v) v = e2rh x (egrad x) (ehess x (embed x v)) v
  rw [he]

private theorem npNorm_eq {ι : Type*} [Fintype ι] {𝕜 : Type*} [RCLike 𝕜] (v : ι → 𝕜) :
    npNorm v = Real.sqrt (retensordot v v) := by
  rw [npNorm, retensordot, map_sum]
  congr 1
  refine Finset.sum_congr rfl fun i _ => ?_
  rw [RCLike.star_def, RCLike.conj_mul, ← RCLike.ofReal_pow, RCLike.ofReal_re]

/-- **C165**, norms: the norm of every manifold with a metric of real values is the root of the
inner product, as `C165_single` requires. -/
theorem C165_norms {κ ι m n : Type*} [Fintype κ] [Fintype ι] [Fintype m] [Fintype n] [DecidableEq n]
    {𝕜 : Type*} [RCLike 𝕜] {p q : ℕ} (dim : ℤ) :
    RootNorm (euclideanMfd (𝕜 := 𝕜) (ι := ι) dim) ∧
    RootNorm (symmetricMfd (κ := κ) (n := n) dim) ∧
    (∀ eps, RootNorm (sphereMfd (ι := ι) eps)) ∧
    (∀ Q eps, RootNorm (sphereSubspaceMfd (ι := ι) Q dim eps)) ∧
    (∀ eps, RootNorm (obliqueMfd (m := m) (n := n) dim eps)) ∧
    (∀ log, RootNorm (complexCircleMfd (ι := ι) log)) ∧
    (∀ par mean, RootNorm (positiveMfd (ι := ι) dim par mean)) ∧
    (∀ log mean, RootNorm (positiveDefiniteMfd (𝕜 := 𝕜) (κ := κ) (n := n) dim log mean)) ∧
    (∀ log mean, RootNorm (specialHpdMfd (κ := κ) (n := p) dim log mean)) ∧
    (∀ retr log mean, RootNorm (stiefelMfd (κ := κ) (n := n) (p := p) dim retr log mean)) ∧
    (∀ retr log mean, RootNorm (grassmannMfd (𝕜 := 𝕜) (κ := κ) (n := n) (p := p) dim retr log mean)) ∧
    (∀ proj log mean, RootNorm (elliptopeMfd (n := n) (k := q) dim proj log mean)) ∧
    (∀ proj log mean, RootNorm (psdMfd (𝕜 := 𝕜) (n := n) (k := q) dim proj log mean)) ∧
    (∀ tr log mean, RootNorm (poincareMfd (κ := κ) (ι := ι) dim tr log mean)) ∧
    ∀ retr log mean, RootNorm (specialOrthogonalMfd (κ := κ) (p := p) dim retr log mean) := by
  refine ⟨fun _ v => npNorm_eq v, fun _ v => stackNorm_eq_sqrt v, fun _ _ v => npNorm_eq_sqrt v,
    fun _ _ _ v => npNorm_eq_sqrt v, fun _ _ v => npNorm_eq_sqrt _, fun _ _ v => npNorm_eq v,
    fun _ _ _ _ => rfl, fun _ _ _ _ => rfl, fun _ _ _ _ => rfl, fun _ _ _ _ v => npNorm_eq_sqrt _,
    fun _ _ _ _ v => stackNorm_eq_sqrt v, fun _ _ _ _ _ => rfl, fun _ _ _ _ v => npNorm_eq _,
    fun _ _ _ _ _ => rfl, fun _ _ _ _ v => npNorm_eq_sqrt _⟩

/-- C165 fails for Hessians on a product of one special orthogonal group: for half the squared norm,
a constant on the group, the Hessian is zero, but on the product it is not. -/
theorem C165_negation_hessian (retr log mean : Stack Unit (Fin 2) (Fin 2) ℝ →
      Stack Unit (Fin 2) (Fin 2) ℝ → Stack Unit (Fin 2) (Fin 2) ℝ) :
    ∃ X V : Stack Unit (Fin 2) (Fin 2) ℝ,
      (∀ k, (X k)ᵀ * X k = 1 ∧ (X k).det = 1 ∧ (V k)ᵀ = -V k) ∧
      (arrayProb (specialOrthogonalMfd 1 retr log mean) gE2rg gE2rh gEmbed
        (fun X => stackDot X X / 2) (fun X => X) fun _ W => W).hess X V = 0 ∧
      (singleProb (specialOrthogonalMfd 1 retr log mean) gE2rg gE2rh
        (fun X => stackDot X X / 2) (fun X => X) fun _ W => W).hess (fun _ => X) (fun _ => V) ≠ 0 := by
  have e : ∀ Y : Stack Unit (Fin 2) (Fin 2) ℝ, multiprod (multihconj fun _ => -1) Y = -Y := fun Y => by
    funext u
    change ((-1 : Matrix (Fin 2) (Fin 2) ℝ)ᵀ.map (starRingEnd ℝ)) * Y u = -Y u
    ext i j
    fin_cases i <;> fin_cases j <;> simp [Matrix.mul_apply, Fin.sum_univ_two]
  have e1 : multiherm (-fun _ => -1 : Stack Unit (Fin 2) (Fin 2) ℝ) = fun _ => 1 := by
    funext u
    change (1 / 2 : ℝ) • (-(-1 : Matrix (Fin 2) (Fin 2) ℝ) +
      (-(-1 : Matrix (Fin 2) (Fin 2) ℝ))ᵀ.map (starRingEnd ℝ)) = 1
    ext i j
    fin_cases i <;> fin_cases j <;> simp <;> norm_num
  refine ⟨fun _ => -1, fun _ => !![0, -1; 1, 0], fun _ => ⟨?_, ?_, ?_⟩, ?_, fun h => ?_⟩
  · simp
  · simp [Matrix.det_fin_two]
  · ext i j; fin_cases i <;> fin_cases j <;> simp
  · simp only [arrayProb, gE2rh, e, e1]
    funext u
    change (1 / 2 : ℝ) • ((-(-1 * !![0, -1; 1, 0]) - !![0, -1; 1, 0] * 1) -
      (-(-1 * !![0, -1; 1, 0]) - !![0, -1; 1, 0] * 1 : Matrix (Fin 2) (Fin 2) ℝ)ᵀ.map (starRingEnd ℝ)) = 0
    simp
  · have h1 := congrFun (congrFun (congrFun (congrFun h 0) ()) 0) 1
    simp only [singleProb, productProb, arrayProb, gE2rh, e, e1] at h1
    change ((1 / 2 : ℝ) • ((-!![0, -1; 1, 0] - !![0, -1; 1, 0] * 1) -
      (-!![0, -1; 1, 0] - !![0, -1; 1, 0] * 1 : Matrix (Fin 2) (Fin 2) ℝ)ᵀ.map (starRingEnd ℝ)) :
        Matrix (Fin 2) (Fin 2) ℝ) 0 1 =
        0 at h1
    norm_num at h1

end single

/-! ## Lists of manifolds -/

section lists
variable {A : Type*} [PyArr A]

private theorem sequence_perm {α : Type*} {l l' : List (Except PyErr α)} (h : l.Perm l') :
    ∀ {a : List α}, Core.sequence l = .ok a → ∃ a', Core.sequence l' = .ok a' ∧ a.Perm a' := by
  induction h with
  | nil => exact fun {a} h => ⟨a, h, .refl _⟩
  | @cons c l l' _ ih =>
    intro a h
    cases c with
    | error e => simp [Core.sequence] at h
    | ok c =>
      cases hl : Core.sequence l with
      | error e => simp [Core.sequence, hl] at h
      | ok b =>
        obtain ⟨b', hb', hp⟩ := ih hl
        simp only [Core.sequence, hl, Except.ok.injEq] at h
        subst h
        exact ⟨c :: b', by simp [Core.sequence, hb'], hp.cons c⟩
  | swap c d l =>
    intro a h
    cases c with
    | error e => cases d <;> simp [Core.sequence] at h
    | ok c =>
      cases d with
      | error e => simp [Core.sequence] at h
      | ok d =>
        cases hl : Core.sequence l with
        | error e => simp [Core.sequence, hl] at h
        | ok b =>
          simp only [Core.sequence, hl, Except.ok.injEq] at h
          subst h
          exact ⟨c :: d :: b, by simp [Core.sequence, hl], .swap _ _ _⟩
  | trans _ _ ih1 ih2 =>
    intro a h
    obtain ⟨b, hb, hp⟩ := ih1 h
    obtain ⟨c, hc, hq⟩ := ih2 hb
    exact ⟨c, hc, hp.trans hq⟩

private theorem sum_perm {l l' : List (Except PyErr ℝ)} (h : l.Perm l') {f : ℝ → ℝ} {d : ℝ}
    (hd : (Core.sequence l).map (fun a => f a.sum) = .ok d) :
    (Core.sequence l').map (fun a => f a.sum) = .ok d := by
  cases hl : Core.sequence l with
  | error e => simp [hl, Except.map] at hd
  | ok a =>
    obtain ⟨a', ha', hp⟩ := sequence_perm h hl
    rw [hl] at hd
    rw [ha', ← hd]
    simp [Except.map, hp.sum_eq]

omit [PyArr A] in
private theorem init_perm {ms ms' : List (PyMfd A)} (h : ms.Perm ms') (hi : productInit ms = .ok ()) :
    productInit ms' = .ok () := by
  have h0 : ms'.any PyMfd.isProduct = ms.any PyMfd.isProduct := by
    rw [Bool.eq_iff_iff]
    simp [h.mem_iff]
  have h1 : ms' = [] ↔ ms = [] := ⟨fun e => (e ▸ h).eq_nil, fun e => (e ▸ h).symm.eq_nil⟩
  have h2 := (h.map fun M : PyMfd A => (M.dim : ℤ)).sum_eq
  have h3 : checkLayout (.tuple (ms.map fun M => .int M.layout)) = .ok () →
      checkLayout (.tuple (ms'.map fun M => .int M.layout)) = .ok () := by
    intro hc
    simp only [checkLayout] at hc ⊢
    cases hs : Core.sequence ((ms.map fun M : PyMfd A => Obj.int M.layout).map Obj.positive) with
    | error e =>
      rw [hs] at hc
      exact absurd hc (by simp)
    | ok a =>
      obtain ⟨a', ha', hp⟩ := sequence_perm ((h.map _).map _) hs
      rw [hs] at hc
      rw [ha']
      have : a'.all id = a.all id := by
        rw [Bool.eq_iff_iff]
        simp [hp.mem_iff]
      simpa [this] using hc
  unfold productInit at hi ⊢
  rw [h0, ← h2]
  simp only [h1]
  split_ifs at hi ⊢ with ha hb
  · exact absurd hi (by simp [manifoldInit])
  · simp only [manifoldInit] at hi ⊢
    split_ifs at hi ⊢
    exact h3 hi

/-- A factor with what belongs to it: components of two points or of a point and two vectors. -/
structure Part (A : Type*) where
  mfd : PyMfd A
  p : Val A
  v : Val A
  w : Val A

omit [PyArr A] in
private theorem zip2 {β : Type*} (g : PyMfd A → Val A → Val A → β)
    (f : PyMfd A → List (Val A) → β) (hf : ∀ M p v, f M [p, v] = g M p v) (l : List (Part A)) :
    (zipArgs (l.map Part.mfd) [l.map Part.p, l.map Part.v]).map (fun q => f q.1 q.2) =
      l.map fun q => g q.mfd q.p q.v := by
  induction l with
  | nil => rfl
  | cons q l ih => simp [zipArgs, hf, ih]

omit [PyArr A] in
private theorem zip3 {β : Type*} (g : PyMfd A → Val A → Val A → Val A → β)
    (f : PyMfd A → List (Val A) → β) (hf : ∀ M p v w, f M [p, v, w] = g M p v w)
    (l : List (Part A)) :
    (zipArgs (l.map Part.mfd) [l.map Part.p, l.map Part.v, l.map Part.w]).map
      (fun q => f q.1 q.2) = l.map fun q => g q.mfd q.p q.v q.w := by
  induction l with
  | nil => rfl
  | cons q l ih => simp [zipArgs, hf, ih]

/-- **C165** (lists of manifolds): with factors and components permuted alike, a product is accepted
or rejected as before and has the same dimension, typical distance, distances, inner products and
norms. -/
theorem C165_lists {l l' : List (Part A)} (h : l.Perm l') (k k' k'' : SeqKind) :
    let ms := l.map Part.mfd
    let ms' := l'.map Part.mfd
    (productInit ms = .ok () ↔ productInit ms' = .ok ()) ∧ productDim ms = productDim ms' ∧
    (∀ d, prodTypicalDist ms = .ok d → prodTypicalDist ms' = .ok d) ∧
    (∀ d, prodDist ms (.seq k (l.map Part.p)) (.seq k' (l.map Part.v)) = .ok d →
      prodDist ms' (.seq k (l'.map Part.p)) (.seq k' (l'.map Part.v)) = .ok d) ∧
    (∀ d, prodInner ms (.seq k (l.map Part.p)) (.seq k' (l.map Part.v)) (.seq k'' (l.map Part.w)) = .ok d →
      prodInner ms' (.seq k (l'.map Part.p)) (.seq k' (l'.map Part.v)) (.seq k'' (l'.map Part.w)) = .ok d) ∧
    ∀ d, prodNorm ms (.seq k (l.map Part.p)) (.seq k' (l.map Part.v)) = .ok d →
      prodNorm ms' (.seq k (l'.map Part.p)) (.seq k' (l'.map Part.v)) = .ok d := by
  intro ms ms'
  have hm : ms.Perm ms' := h.map _
  have hin : ∀ {l l' : List (Part A)}, l.Perm l' → ∀ (k k' k'' : SeqKind) d,
      prodInner (l.map Part.mfd) (.seq k (l.map Part.p)) (.seq k' (l.map Part.v))
        (.seq k'' (l.map Part.w)) = .ok d →
      prodInner (l'.map Part.mfd) (.seq k (l'.map Part.p)) (.seq k' (l'.map Part.v))
        (.seq k'' (l'.map Part.w)) = .ok d := by
    intro l l' h k k' k'' d
    simp only [prodInner, dispatch, List.map_cons, List.map_nil, Val.items, Core.sequence]
    rw [zip3 (fun M => M.inner) (fun M => call3 M.inner) fun _ _ _ _ => rfl,
      zip3 (fun M => M.inner) (fun M => call3 M.inner) fun _ _ _ _ => rfl]
    exact sum_perm (f := fun a => a) (h.map _)
  refine ⟨?_, (hm.map _).sum_eq, fun d hd => sum_perm (hm.map _) hd, fun d => ?_,
    fun d => hin h k k' k'' d, fun d => ?_⟩
  · exact ⟨init_perm hm, init_perm hm.symm⟩
  · simp only [prodDist, dispatch, List.map_cons, List.map_nil, Val.items, Core.sequence]
    rw [zip2 (fun M p v => (M.dist p v).map (· ^ 2)) (fun M l => (call2 M.dist l).map (· ^ 2))
        fun _ _ _ => rfl,
      zip2 (fun M p v => (M.dist p v).map (· ^ 2)) (fun M l => (call2 M.dist l).map (· ^ 2))
        fun _ _ _ => rfl]
    exact sum_perm (h.map _)
  · have h2 := hin (h.map fun q => { q with w := q.v }) k k' k'
    simp only [List.map_map, Function.comp_def] at h2
    simp only [prodNorm, map_ok_iff]
    rintro ⟨a, ha, rfl⟩
    exact ⟨a, h2 a ha, rfl⟩

end lists

/-! ## Examples -/

/-- A sphere and a vector space, swapped, for the cost `x₀ + y₀ ^ 2`. -/
example : Reordered (k := 2) (E := fun _ => Fin 3 → ℝ) (Equiv.swap 0 1)
    (fun x => x 0 0 + x 1 0 ^ 2) (fun x => ![Pi.single 0 1, Pi.single 0 (2 * x 1 0)])
    (fun _ v => ![0, Pi.single 0 (2 * v 1 0)]) (fun x => x 1 0 + x 0 0 ^ 2)
    (fun x => ![Pi.single 0 (2 * x 0 0), Pi.single 0 1]) fun _ v => ![Pi.single 0 (2 * v 0 0), 0] where
  cost _ := by simp [reorder]
  egrad _ i := by fin_cases i <;> simp [reorder]
  ehess _ _ i := by fin_cases i <;> simp [reorder]

/-- The order matters for the cost itself: the same function of the other order is another one. -/
example : ¬ Reordered (k := 2) (E := fun _ => Fin 3 → ℝ) (Equiv.swap 0 1)
    (fun x => x 0 0 + x 1 0 ^ 2) (fun x => ![Pi.single 0 1, Pi.single 0 (2 * x 1 0)])
    (fun _ v => ![0, Pi.single 0 (2 * v 1 0)]) (fun x => x 0 0 + x 1 0 ^ 2)
    (fun x => ![Pi.single 0 1, Pi.single 0 (2 * x 1 0)]) fun _ v => ![0, Pi.single 0 (2 * v 1 0)] := by
  intro h
  have := h.cost ![0, Pi.single 0 2]
  simp [reorder] at this
  norm_num at this

/-- Two different factors, in both orders. -/
example : prodTypicalDist [scaledLine, { scaledLine with typicalDist := .ok 2 }] = .ok (Real.sqrt 5) ∧
    prodTypicalDist [{ scaledLine with typicalDist := .ok 2 }, scaledLine] = .ok (Real.sqrt 5) := by
  have h1 : prodTypicalDist [scaledLine, { scaledLine with typicalDist := .ok 2 }] =
      .ok (Real.sqrt 5) := by
    norm_num [prodTypicalDist, scaledLine, Core.sequence, Except.map]
  exact ⟨h1, (C165_lists (l := [⟨scaledLine, .arr 0, .arr 0, .arr 0⟩,
    ⟨{ scaledLine with typicalDist := .ok 2 }, .arr 0, .arr 0, .arr 0⟩]) (.swap _ _ _)
    .list .list .list).2.2.1 _ h1⟩

end Verif.Geo
