/-
C134: two representatives of the same starting point lead to the same run.
-/
import Verif.Geo.Props.EquivarianceArr
import Verif.Geo.Props.ExampleRuns
import Verif.Geo.Props.ExampleBackends

namespace Verif.Geo
open Matrix Verif.Opt Verif.Geo.Examples
open scoped ComplexOrder Topology

/-! ## Specification -/

section spec
variable {F P S : Type*}

/-- Two results that agree in everything but the representatives of the points. -/
structure SameResult (same : P → P → Prop) (r r' : Result F P) : Prop where
  point : same r.point r'.point
  cost : r'.cost = r.cost
  iterations : r'.iterations = r.iterations
  stop : r'.stop = r.stop
  time : r'.time = r.time
  costEvaluations : r'.costEvaluations = r.costEvaluations
  stepSize : r'.stepSize = r.stepSize
  gradientNorm : r'.gradientNorm = r.gradientNorm
  evals : List.Forall₂ same r.evals r'.evals
  log : Option.Rel (List.Forall₂ fun e e' : LogEntry F P => same e.point e'.point ∧
    e'.time = e.time ∧ e'.iteration = e.iteration ∧ e'.cost = e.cost ∧
    e'.gradientNorm = e.gradientNorm) r.log r'.log

/-- Two outcomes of a call: the same exception, or results that agree. -/
def SameOutcome (same : P → P → Prop) :
    Except PyErr (Result F P × S) → Except PyErr (Result F P × S) → Prop
  | .ok r, .ok r' => SameResult same r.1 r'.1
  | .error e, .error e' => e' = e
  | _, _ => False

theorem SameResult.map {same : P → P → Prop} {φ : P → P} (h : ∀ x, same x (φ x)) (r : Result F P) :
    SameResult same r (r.mapPoint φ) where
  point := h _
  cost := rfl
  iterations := rfl
  stop := rfl
  time := rfl
  costEvaluations := rfl
  stepSize := rfl
  gradientNorm := rfl
  evals := by
    change List.Forall₂ same r.evals (r.evals.map φ)
    rw [List.forall₂_map_right_iff]
    exact List.forall₂_same.2 fun x _ => h x
  log := by
    change Option.Rel _ r.log (r.log.map (List.map (LogEntry.mapPoint φ)))
    cases r.log with
    | none => exact .none
    | some l =>
      refine .some ?_
      rw [List.forall₂_map_right_iff]
      exact List.forall₂_same.2 fun e _ => ⟨h _, rfl, rfl, rfl, rfl⟩

variable {E : Type*} {pb pb' : Prob ℝ P E} {φ : P → P} {ψ : P → E → E} {On : P → Prop}
  {Tan : P → E → Prop} {same : P → P → Prop}

/-- One of the line searchers of the package. -/
def IsLineSearcher (ls : LineSearcher ℝ P E (Option ℝ)) : Prop :=
  (∃ c, ls = backTracking P E c) ∨ ∃ c, ls = adaptive P E c

/-- The three optimizers that use gradients have the same outcomes from `x` on the problem `pb` and
from `y` on the problem `pb'`. -/
structure SameRuns (same : P → P → Prop) (pb pb' : Prob ℝ P E) (x y : P) : Prop where
  steepestDescent : ∀ (cfg : Cfg ℝ) (ls) (clk : Clock ℝ) (mem : Option ℝ) (r'),
    IsLineSearcher ls → SDRuns cfg ls pb' clk y mem r' →
      ∃ r, SDRuns cfg ls pb clk x mem r ∧ SameOutcome same r r'
  conjugateGradient : ∀ (cfg : Cfg ℝ) (rule : BetaRule) (orth : ℝ) (ls) (clk : Clock ℝ)
    (mem : Option ℝ) (r'), IsLineSearcher ls → CGRuns cfg rule orth ls pb' clk y mem r' →
      ∃ r, CGRuns cfg rule orth ls pb clk x mem r ∧ SameOutcome same r r'
  trustRegions : ∀ (cfg : Cfg ℝ) (c : TRCfg ℝ) (clk : Clock ℝ) (eta0 : ℤ → E) (mininner : ℤ)
    (maxinner : Option ℤ) (typicalDist DeltaBar Delta0 : Option ℝ) (r'), c.useRand = false →
    TRRuns cfg c pb' clk eta0 mininner maxinner typicalDist DeltaBar Delta0 y r' →
      ∃ r, TRRuns cfg c pb clk eta0 mininner maxinner typicalDist DeltaBar Delta0 x r ∧
        SameOutcome same r r'

/-- **C134**: a translation of problems relates the runs from `x` and `φ x`. -/
theorem C134_same_runs (h : Translates φ ψ On Tan pb pb') (hH : TranslatesHess φ ψ On Tan pb pb')
    (hi : InnerAnywhere ψ φ On Tan pb.M pb'.M) (hs : ∀ x, same x (φ x)) {x : P} (hx : On x) :
    SameRuns same pb pb' x (φ x) where
  steepestDescent cfg ls clk mem r' hls hr' := by
    have hs' : SearchTranslates ls ls φ ψ On Tan pb pb' := by
      rcases hls with ⟨c, rfl⟩ | ⟨c, rfl⟩
      exacts [C133_backTracking h c, C133_adaptive h c]
    obtain ⟨r, hr, rfl⟩ := (C133_steepestDescent h hs' hx).1 hr'
    refine ⟨r, hr, ?_⟩
    cases r with
    | error e => exact rfl
    | ok q => exact SameResult.map hs q.1
  conjugateGradient cfg rule orth ls clk mem r' hls hr' := by
    have hs' : SearchTranslates ls ls φ ψ On Tan pb pb' := by
      rcases hls with ⟨c, rfl⟩ | ⟨c, rfl⟩
      exacts [C133_backTracking h c, C133_adaptive h c]
    obtain ⟨r, hr, rfl⟩ := (C133_conjugateGradient h (fun _ => hi) hs' hx).1 hr'
    refine ⟨r, hr, ?_⟩
    cases r with
    | error e => exact rfl
    | ok q => exact SameResult.map hs q.1
  trustRegions cfg c clk eta0 mininner maxinner td DB D0 r' hc hr' := by
    obtain ⟨r, hr, rfl⟩ := (C133_trustRegions (eta0 := eta0) h hH (fun hu => by simp [hc] at hu) hx).1 hr'
    refine ⟨r, hr, ?_⟩
    cases r with
    | error e => exact rfl
    | ok q => exact SameResult.map hs q.1

/-- The optimizers have the same outcomes from `x` and `y` on the problem `pb`. -/
def SameRunsFrom (same : P → P → Prop) (pb : Prob ℝ P E) (x y : P) : Prop := SameRuns same pb pb x y

end spec

/-! ## The sphere -/

/-- **C134** (dominant_eigenvector.py, check_gradient.py, check_hessian.py): rotating the matrix and
the initial guess by `Q` rotates the points by `Q`, and changes nothing else. -/
theorem C134_eigenvector_runs {n : Type*} [Fintype n] [DecidableEq n] {A Q : Matrix n n ℝ}
    (hA : Aᵀ = A) (hQ : Qᵀ * Q = 1) (eps : ℝ) {x : n → ℝ} (hx : OnSphere x) :
    SameRuns (fun y z => z = Q *ᵥ y) (eigProb A eps) (eigProb (Q * A * Qᵀ) eps) x (Q *ᵥ x) := by
  have hA' : (Q * A * Qᵀ)ᵀ = Q * A * Qᵀ := by
    rw [transpose_mul, transpose_mul, transpose_transpose, hA, Matrix.mul_assoc]
  have hT : Isom tensordot (Q.mulVecLin : (n → ℝ) →ₗ[ℝ] n → ℝ) :=
    ⟨fun y => ⟨Qᵀ *ᵥ y, by
      rw [mulVecLin_apply, mulVec_mulVec, mul_eq_one_comm.mp hQ, one_mulVec]⟩, fun a b => by
      change Q *ᵥ a ⬝ᵥ Q *ᵥ b = a ⬝ᵥ b
      rw [dotProduct_mulVec, ← mulVec_transpose, mulVec_mulVec, hQ, one_mulVec]⟩
  obtain ⟨h1, h2⟩ := C134_problems (U := fun _ => True) (U' := fun _ => True) (ehess := eigHess A)
    (ehess' := eigHess (Q * A * Qᵀ)) tensordot_inner (C134_sphere hT eps).1
    (C109_sphere eps (eigCost A) (eigGrad A) (eigHess A)).1
    (sub_tan_of sphereTangent_subspace)
    ⟨fun _ _ _ => Filter.Eventually.of_forall fun _ => trivial,
      fun X d _ => (C128_eigenvector hA).1 X d⟩
    (cost' := eigCost (Q * A * Qᵀ)) (egrad' := eigGrad (Q * A * Qᵀ))
    ⟨fun _ _ _ => Filter.Eventually.of_forall fun _ => trivial,
      fun X d _ => (C128_eigenvector hA').1 X d⟩
    (fun y _ => ⟨trivial, by
      rw [mulVecLin_apply, eigCost, eigCost, neg_vecMul, neg_vecMul, neg_dotProduct, neg_dotProduct,
        ← dotProduct_mulVec, ← dotProduct_mulVec, mulVec_mulVec, Matrix.mul_assoc, hQ, Matrix.mul_one,
        ← mulVec_mulVec, dotProduct_mulVec, ← mulVec_transpose, mulVec_mulVec, hQ, one_mulVec]⟩)
    fun _ _ => trivial
  exact C134_same_runs (same := fun y z => z = Q *ᵥ y) h1
    (h2 (C109_sphere eps (eigCost A) (eigGrad A) (eigHess A)).2.1
    (fun X d w _ => (C128_eigenvector hA).2 X d w) fun X d w _ => (C128_eigenvector hA').2 X d w)
    (fun _ _ v w _ _ _ _ => hT.dot v w) (fun _ => rfl) hx

/-- A reflection, and a point of the sphere. -/
example : (!![0, 1; 1, 0] : Matrix (Fin 2) (Fin 2) ℝ)ᵀ * !![0, 1; 1, 0] = 1 ∧
    OnSphere (![3 / 5, 4 / 5] : Fin 2 → ℝ) := by
  constructor
  · ext i j; fin_cases i <;> fin_cases j <;> norm_num [Matrix.mul_apply, Fin.sum_univ_two]
  · norm_num [OnSphere, tensordot, Fin.sum_univ_two]

/-! ## Grassmann -/

section grassmann
variable {κ n : Type*} {𝕜 : Type*} [RCLike 𝕜] [Fintype n] [DecidableEq n] {p : ℕ}

/-- The columns of corresponding matrices span the same subspaces. -/
def SameSpans (X Y : Stack κ n (Fin p) 𝕜) : Prop :=
  ∀ k, LinearMap.range (X k).mulVecLin = LinearMap.range (Y k).mulVecLin

omit [Fintype n] [DecidableEq n] in
theorem range_mul_unitary (X : Matrix n (Fin p) 𝕜) {C : Matrix (Fin p) (Fin p) 𝕜} (hC : Cᴴ * C = 1) :
    LinearMap.range X.mulVecLin = LinearMap.range (X * C).mulVecLin := by
  have hC' : C * Cᴴ = 1 := mul_eq_one_comm.mp hC
  ext v
  simp only [LinearMap.mem_range, mulVecLin_apply]
  constructor
  · rintro ⟨w, rfl⟩
    exact ⟨Cᴴ *ᵥ w, by rw [mulVec_mulVec, Matrix.mul_assoc, hC', Matrix.mul_one]⟩
  · rintro ⟨w, rfl⟩
    exact ⟨C *ᵥ w, by rw [mulVec_mulVec]⟩

omit [DecidableEq n] in
/-- Two orthonormal bases of the same subspace. -/
theorem unitary_of_range {X Y : Matrix n (Fin p) 𝕜} (hX : Xᴴ * X = 1) (hY : Yᴴ * Y = 1)
    (h : LinearMap.range X.mulVecLin = LinearMap.range Y.mulVecLin) :
    ∃ C : Matrix (Fin p) (Fin p) 𝕜, Cᴴ * C = 1 ∧ Y = X * C := by
  have e : X * (Xᴴ * Y) = Y := by
    ext i j
    have hj : Y *ᵥ Pi.single j 1 ∈ LinearMap.range X.mulVecLin := by
      rw [h]; exact ⟨_, rfl⟩
    obtain ⟨w, hw⟩ := hj
    rw [mulVecLin_apply] at hw
    have h1 : (X * (Xᴴ * Y)) *ᵥ Pi.single j 1 = Y *ᵥ Pi.single j 1 := by
      rw [← mulVec_mulVec, ← mulVec_mulVec, ← hw, mulVec_mulVec, mulVec_mulVec, Matrix.mul_assoc,
        hX, Matrix.mul_one]
    simpa using congrFun h1 i
  refine ⟨Xᴴ * Y, ?_, e.symm⟩
  rw [conjTranspose_mul, conjTranspose_conjTranspose, Matrix.mul_assoc, e, hY]

variable [Fintype κ]

/-- **C134** (Grassmann): if the cost depends only on the subspaces, runs from two bases of the same
subspaces visit the same subspaces, at the same costs, and end alike. -/
theorem C134_grassmann_runs (dim : ℤ)
    {retraction log pairMean : Stack κ n (Fin p) 𝕜 → Stack κ n (Fin p) 𝕜 → Stack κ n (Fin p) 𝕜}
    (hr : ∀ X V, IsGrRetraction X V (retraction X V)) {U : Stack κ n (Fin p) 𝕜 → Prop}
    {cost : Stack κ n (Fin p) 𝕜 → ℝ} {egrad : Stack κ n (Fin p) 𝕜 → Stack κ n (Fin p) 𝕜}
    {ehess : Stack κ n (Fin p) 𝕜 → Stack κ n (Fin p) 𝕜 → Stack κ n (Fin p) 𝕜}
    (hg : GradOn stackDot U cost egrad) (hh : HessOn stackDot U egrad ehess)
    (hU : ∀ X, Orthonormal' X → U X)
    (hinv : ∀ X (C : Stack κ (Fin p) (Fin p) 𝕜), (∀ k, (C k)ᴴ * C k = 1) → U X →
      U (fun k => X k * C k) ∧ cost (fun k => X k * C k) = cost X)
    {X Y : Stack κ n (Fin p) 𝕜} (hX : Orthonormal' X) (hY : Orthonormal' Y) (hXY : SameSpans X Y) :
    SameRunsFrom SameSpans (arrayProb (grassmannMfd dim retraction log pairMean) cgrProj cgrE2rh
      (fun _ v => v) cost egrad ehess) X Y := by
  choose C hC hYC using fun k => unitary_of_range (orthonormal_iff.mp hX k) (orthonormal_iff.mp hY k)
    (hXY k)
  have hu : Unitary2 (fun _ : κ => (1 : Matrix n n 𝕜)) C := ⟨fun _ => by simp, hC⟩
  have hφ : ∀ Z : Stack κ n (Fin p) 𝕜, twoSided (fun _ => 1) C Z = fun k => Z k * C k := fun Z => by
    funext k
    rw [twoSided_apply, Matrix.one_mul]
  obtain ⟨h1, h2⟩ := C134_problems (ehess := ehess) (ehess' := ehess) stackDot_inner
    (C134_grassmann (log := log) (log' := log) (pairMean := pairMean) (pairMean' := pairMean) hu dim hr
      hr) (C109_grassmann dim retraction log pairMean hr cost egrad ehess).1
    (sub_tan_of grHorizontal_subspace) hg hg
    (fun Z hZ => by rw [hφ]; exact hinv Z C hC hZ) hU
  have := C134_same_runs (same := SameSpans) h1
    (h2 (C109_grassmann dim retraction log pairMean hr cost egrad ehess).2.1 hh hh)
    (fun _ _ V W _ _ _ _ => hu.dot V W)
    (fun Z k => by rw [hφ]; exact range_mul_unitary _ (hC k)) hX
  rwa [hφ, ← show Y = fun k => X k * C k from funext hYC] at this

/-- **C134** (dominant_invariant_subspace.py, dominant_invariant_complex_subspace.py): the basis of
the initial subspace does not matter. -/
theorem C134_subspace_runs {A : Matrix n n 𝕜} (hA : Aᴴ = A) (dim : ℤ)
    (retraction log pairMean :
      Stack Unit n (Fin p) 𝕜 → Stack Unit n (Fin p) 𝕜 → Stack Unit n (Fin p) 𝕜)
    (hr : ∀ X V, IsGrRetraction X V (retraction X V)) {X Y : Stack Unit n (Fin p) 𝕜}
    (hX : Orthonormal' X) (hY : Orthonormal' Y) (hXY : SameSpans X Y) :
    SameRunsFrom SameSpans (subspaceProb A dim retraction log pairMean) X Y := by
  refine C134_grassmann_runs dim hr (U := fun _ => True)
    ⟨fun _ _ _ => Filter.Eventually.of_forall fun _ => trivial, fun X d _ => ?_⟩
    (fun X d w _ => ?_) (fun _ _ => trivial) (fun X C hC _ => ⟨trivial, ?_⟩) hX hY hXY
  · rw [stackDot_unit]
    exact (C128_subspace hA).1 (X ()) (d ())
  · simp only [stackDot_unit]
    exact (C128_subspace hA).2 (X ()) (d ()) (w ())
  · change subspaceCost A (X () * C ()) = subspaceCost A (X ())
    have hC' : C () * (C ())ᴴ = 1 := mul_eq_one_comm.mp (hC ())
    rw [subspaceCost, subspaceCost, conjTranspose_mul, ← Matrix.mul_assoc, Matrix.trace_mul_comm]
    have : C () * ((C ())ᴴ * (X ())ᴴ * A * X ()) = (X ())ᴴ * A * X () := by
      calc C () * ((C ())ᴴ * (X ())ᴴ * A * X ()) = C () * (C ())ᴴ * ((X ())ᴴ * A * X ()) := by
            simp only [Matrix.mul_assoc]
        _ = _ := by rw [hC', Matrix.one_mul]
    rw [this]

end grassmann

/-! ## Positive semidefinite matrices of fixed rank -/

section psd
variable {n : Type*} {𝕜 : Type*} [RCLike 𝕜] [Fintype n] [DecidableEq n] {k : ℕ}

/-- Two factors of the same matrix. -/
def SameProduct (Y Z : Matrix n (Fin k) 𝕜) : Prop := Y * Yᴴ = Z * Zᴴ

omit [DecidableEq n] in
/-- Factors of full rank of the same matrix differ by a unitary matrix. -/
theorem unitary_of_product {Y Z : Matrix n (Fin k) 𝕜} (hY : IsUnit (Yᴴ * Y)) (h : SameProduct Y Z) :
    ∃ C : Matrix (Fin k) (Fin k) 𝕜, Cᴴ * C = 1 ∧ Z = Y * C := by
  have hd := (Matrix.isUnit_iff_isUnit_det _).1 hY
  set S := Yᴴ * Y with hS
  have hi : S⁻¹ * S = 1 := Matrix.nonsing_inv_mul _ hd
  have hi' : S * S⁻¹ = 1 := Matrix.mul_nonsing_inv _ hd
  have hSh : Sᴴ = S := by rw [hS, conjTranspose_mul, conjTranspose_conjTranspose]
  have hSih : (S⁻¹)ᴴ = S⁻¹ := by rw [conjTranspose_nonsing_inv, hSh]
  set C := S⁻¹ * (Yᴴ * Z) with hC
  have hCC : C * Cᴴ = 1 := by
    have e : C * Cᴴ = S⁻¹ * Yᴴ * (Z * Zᴴ) * Y * S⁻¹ := by
      rw [hC, conjTranspose_mul, conjTranspose_mul, conjTranspose_conjTranspose, hSih]
      simp only [Matrix.mul_assoc]
    have e2 : S⁻¹ * Yᴴ * (Y * Yᴴ) * Y * S⁻¹ = S⁻¹ * S * (S * S⁻¹) := by
      rw [hS]; simp only [Matrix.mul_assoc]
    rw [e, ← h, e2, hi, hi', Matrix.one_mul]
  have hCC' : Cᴴ * C = 1 := mul_eq_one_comm.mp hCC
  refine ⟨C, hCC', ?_⟩
  have hR : (Z - Y * C) * (Z - Y * C)ᴴ = 0 := by
    have e1 : Z * (Y * C)ᴴ = Y * Yᴴ := by
      have : Z * (Y * C)ᴴ = Z * Zᴴ * Y * S⁻¹ * Yᴴ := by
        rw [hC, conjTranspose_mul, conjTranspose_mul, conjTranspose_mul, conjTranspose_conjTranspose,
          hSih]
        simp only [Matrix.mul_assoc]
      rw [this, ← h]
      calc Y * Yᴴ * Y * S⁻¹ * Yᴴ = Y * (S * S⁻¹) * Yᴴ := by rw [hS]; simp only [Matrix.mul_assoc]
        _ = _ := by rw [hi', Matrix.mul_one]
    have e2 : Y * C * Zᴴ = Y * Yᴴ := by
      have := congrArg conjTranspose e1
      rw [conjTranspose_mul, conjTranspose_conjTranspose, conjTranspose_mul,
        conjTranspose_conjTranspose] at this
      exact this
    have e3 : Y * C * (Y * C)ᴴ = Y * Yᴴ := by
      rw [conjTranspose_mul]
      calc Y * C * (Cᴴ * Yᴴ) = Y * (C * Cᴴ) * Yᴴ := by simp only [Matrix.mul_assoc]
        _ = _ := by rw [hCC, Matrix.mul_one]
    rw [conjTranspose_sub, Matrix.sub_mul, Matrix.mul_sub, Matrix.mul_sub, e1, e2, e3, ← h]
    simp
  exact sub_eq_zero.1 (Matrix.self_mul_conjTranspose_eq_zero.1 hR)

/-- **C134** (positive semidefinite matrices of fixed rank): if the cost depends only on `Y Yᴴ`, runs
from two factors of the same matrix visit the same matrices, at the same costs, and end alike. -/
theorem C134_psd_runs (dim : ℤ)
    {proj log pairMean : Matrix n (Fin k) 𝕜 → Matrix n (Fin k) 𝕜 → Matrix n (Fin k) 𝕜}
    (hp : ∀ Y V, IsPsdProj Y V (proj Y V)) {U : Matrix n (Fin k) 𝕜 → Prop}
    {cost : Matrix n (Fin k) 𝕜 → ℝ} {egrad : Matrix n (Fin k) 𝕜 → Matrix n (Fin k) 𝕜}
    {ehess : Matrix n (Fin k) 𝕜 → Matrix n (Fin k) 𝕜 → Matrix n (Fin k) 𝕜}
    (hg : GradOn trDot U cost egrad) (hh : HessOn trDot U egrad ehess) (hU : ∀ X, U X)
    (hinv : ∀ Y Z, SameProduct Y Z → cost Z = cost Y) {Y Z : Matrix n (Fin k) 𝕜}
    (hY : IsUnit (Yᴴ * Y)) (hYZ : SameProduct Y Z) :
    SameRunsFrom SameProduct (arrayProb (psdMfd dim proj log pairMean) psdE2rg (fun Y _ H _ => proj Y H)
      (fun _ v => v) cost egrad ehess) Y Z := by
  obtain ⟨C, hC, rfl⟩ := unitary_of_product hY hYZ
  have hφ : ∀ Z : Matrix n (Fin k) 𝕜, mulBoth 1 C Z = Z * C := fun Z => by
    rw [mulBoth_apply, Matrix.one_mul]
  have hsame : ∀ Z : Matrix n (Fin k) 𝕜, SameProduct Z (Z * C) := fun Z => by
    rw [SameProduct, conjTranspose_mul]
    calc Z * Zᴴ = Z * (C * Cᴴ) * Zᴴ := by rw [mul_eq_one_comm.mp hC, Matrix.mul_one]
      _ = _ := by simp only [Matrix.mul_assoc]
  have hsym := C134_psd (A := (1 : Matrix n n 𝕜)) (by simp) hC dim hp hp log log pairMean pairMean
  have hcl : ClosedProb (arrayProb (psdMfd dim proj log pairMean) psdE2rg (fun Y _ H _ => proj Y H)
      (fun _ v => v) cost egrad ehess) (fun _ => True) fun _ _ => True :=
    closedProb_of (closed_of_subspace (fun _ => isSubspace_true) (fun _ _ _ _ => trivial)
      (fun _ _ _ _ _ _ => trivial) (fun _ _ => trivial) fun _ _ _ _ => trivial) fun _ _ _ => trivial
  obtain ⟨h1, h2⟩ := C134_problems (ehess := ehess) (ehess' := ehess) (U := U) (U' := U) trDot_inner
    hsym hcl (fun _ _ _ _ _ _ => trivial) hg hg
    (fun Z _ => ⟨hU _, by rw [hφ]; exact hinv _ _ (hsame Z)⟩) fun Z _ => hU Z
  have hi : ∀ Y V W : Matrix n (Fin k) 𝕜, psdInner Y V W = trDot V W := fun Y V W => by
    rw [psdInner, trDot_eq_sum, retensordot, map_sum, Fintype.sum_prod_type]
  have := C134_same_runs (same := SameProduct) h1 (h2 (fun _ _ _ _ => trivial) hh hh)
    (fun X Y V W _ _ _ _ => by
      change psdInner (mulBoth 1 C X) (mulBoth 1 C V) (mulBoth 1 C W) = psdInner X V W
      rw [hi, hi, (mulBoth_isom (p := Fin k) (A := (1 : Matrix n n 𝕜)) (by simp) hC).dot])
    (fun Z => by rw [hφ]; exact hsame Z) (x := Y) trivial
  rwa [hφ] at this

/-- **C134** (low_rank_psd_matrix_approximation.py): the factor of the initial matrix does not
matter. -/
theorem C134_low_rank_psd_runs {matrix : Matrix n n ℝ} (hA : matrixᵀ = matrix) (dim : ℤ)
    {proj log pairMean : Matrix n (Fin k) ℝ → Matrix n (Fin k) ℝ → Matrix n (Fin k) ℝ}
    (hp : ∀ Y V, IsPsdProj Y V (proj Y V)) {Y Z : Matrix n (Fin k) ℝ}
    (hY : IsUnit (Yᴴ * Y)) (hYZ : SameProduct Y Z) :
    SameRunsFrom SameProduct (arrayProb (psdMfd dim proj log pairMean) psdE2rg (fun Y _ H _ => proj Y H)
      (fun _ v => v) (psdCost matrix) (psdGrad matrix) (psdHess matrix)) Y Z := by
  refine C134_psd_runs dim hp (U := fun _ => True)
    ⟨fun _ _ _ => Filter.Eventually.of_forall fun _ => trivial, fun X d _ => (C128_psd hA).1 X d⟩
    (fun X d w _ => (C128_psd hA).2 X d w) (fun _ => trivial) (fun Y Z h => ?_) hY hYZ
  rw [SameProduct, conjTranspose_eq_transpose_of_trivial, conjTranspose_eq_transpose_of_trivial] at h
  rw [psdCost, psdCost, h]

/-- **C134** (elliptope): if the cost depends only on `Y Yᵀ`, runs from two factors of the same
correlation matrix visit the same matrices, at the same costs, and end alike. -/
theorem C134_elliptope_runs (dim : ℤ)
    {proj log pairMean : Matrix n (Fin k) ℝ → Matrix n (Fin k) ℝ → Matrix n (Fin k) ℝ}
    (hp : ∀ Y V, IsEllProj Y V (proj Y V)) {U : Matrix n (Fin k) ℝ → Prop}
    {cost : Matrix n (Fin k) ℝ → ℝ} {egrad : Matrix n (Fin k) ℝ → Matrix n (Fin k) ℝ}
    {ehess : Matrix n (Fin k) ℝ → Matrix n (Fin k) ℝ → Matrix n (Fin k) ℝ}
    (hg : GradOn trDot U cost egrad) (hh : HessOn trDot U egrad ehess) (hU : ∀ X, U X)
    (hinv : ∀ Y Z, SameProduct Y Z → cost Z = cost Y) {Y Z : Matrix n (Fin k) ℝ}
    (hY1 : UnitRows Y) (hY : IsUnit (Yᴴ * Y)) (hYZ : SameProduct Y Z) :
    SameRunsFrom SameProduct (arrayProb (elliptopeMfd dim proj log pairMean) ellE2rg
      (fun Y G H V => proj Y (ellRowHess Y G H V)) (fun _ v => v) cost egrad ehess) Y Z := by
  obtain ⟨C, hC, rfl⟩ := unitary_of_product hY hYZ
  have hφ : ∀ Z : Matrix n (Fin k) ℝ, mulBoth 1 C Z = Z * C := fun Z => by
    rw [mulBoth_apply, Matrix.one_mul]
  have hsame : ∀ Z : Matrix n (Fin k) ℝ, SameProduct Z (Z * C) := fun Z => by
    rw [SameProduct, conjTranspose_mul]
    calc Z * Zᴴ = Z * (C * Cᴴ) * Zᴴ := by rw [mul_eq_one_comm.mp hC, Matrix.mul_one]
      _ = _ := by simp only [Matrix.mul_assoc]
  have hsym := C134_elliptope (n := n) hC dim hp hp log log pairMean pairMean
  obtain ⟨hcl, hcl'⟩ := C109_elliptope dim proj log pairMean (fun Y V _ => hp Y V) cost egrad ehess
  obtain ⟨h1, h2⟩ := C134_problems (ehess := ehess) (ehess' := ehess) (U := U) (U' := U) trDot_inner
    hsym hcl (sub_tan_of fun _ => rowTangent_subspace _) hg hg
    (fun Z _ => ⟨hU _, by rw [hφ]; exact hinv _ _ (hsame Z)⟩) fun Z _ => hU Z
  have hi : ∀ Y V W : Matrix n (Fin k) ℝ, ellInner Y V W = trDot V W := fun Y V W => by
    rw [ellInner, ← retensordot_real, trDot_eq_sum, retensordot, map_sum, Fintype.sum_prod_type]
  have := C134_same_runs (same := SameProduct) h1 (h2 hcl' hh hh)
    (fun X Y V W _ _ _ _ => by
      change ellInner (mulBoth 1 C X) (mulBoth 1 C V) (mulBoth 1 C W) = ellInner X V W
      rw [hi, hi, (mulBoth_isom (p := Fin k) (A := (1 : Matrix n n ℝ)) (by simp) hC).dot])
    (fun Z => by rw [hφ]; exact hsame Z) (x := Y) hY1
  rwa [hφ] at this

/-- **C134** (packing_on_the_sphere.py): rotating the initial points does not matter, whatever
gradient and Hessian the backend returns. -/
theorem C134_packing_runs {N : ℕ} (epsilon : ℝ) (dim : ℤ)
    {proj log pairMean : Matrix (Fin (N + 1)) (Fin k) ℝ → Matrix (Fin (N + 1)) (Fin k) ℝ →
      Matrix (Fin (N + 1)) (Fin k) ℝ} (hp : ∀ Y V, IsEllProj Y V (proj Y V))
    {egrad : Matrix (Fin (N + 1)) (Fin k) ℝ → Matrix (Fin (N + 1)) (Fin k) ℝ}
    {ehess : Matrix (Fin (N + 1)) (Fin k) ℝ → Matrix (Fin (N + 1)) (Fin k) ℝ →
      Matrix (Fin (N + 1)) (Fin k) ℝ}
    (hg : IsGradient trDot (packCost epsilon) egrad) (hh : IsHessian trDot egrad ehess)
    {Y Z : Matrix (Fin (N + 1)) (Fin k) ℝ}
    (hY1 : UnitRows Y) (hY : IsUnit (Yᴴ * Y)) (hYZ : SameProduct Y Z) :
    SameRunsFrom SameProduct (arrayProb (elliptopeMfd dim proj log pairMean) ellE2rg
      (fun Y G H V => proj Y (ellRowHess Y G H V)) (fun _ v => v) (packCost epsilon) egrad ehess) Y
      Z := by
  refine C134_elliptope_runs dim hp (U := fun _ => True)
    ⟨fun _ _ _ => Filter.Eventually.of_forall fun _ => trivial, fun X d _ => hg X d⟩
    (fun X d w _ => hh X d w) (fun _ => trivial) (fun Y Z h => ?_) hY1 hY hYZ
  rw [SameProduct, conjTranspose_eq_transpose_of_trivial, conjTranspose_eq_transpose_of_trivial] at h
  rw [packCost, packCost, h]

end psd

/-! ## The hypotheses are met -/

/-- Two bases of a plane in ℝ³, and two factors of a matrix of rank two. -/
example (X Y : Matrix (Fin 3) (Fin 2) ℝ) (hX : X = !![1, 0; 0, 1; 0, 0])
    (hY : Y = !![3 / 5, -4 / 5; 4 / 5, 3 / 5; 0, 0]) :
    Orthonormal' (fun _ : Unit => X) ∧ Orthonormal' (fun _ : Unit => Y) ∧
      SameSpans (fun _ : Unit => X) (fun _ => Y) ∧ IsUnit (Xᴴ * X) ∧ SameProduct X Y ∧ X ≠ Y := by
  have h1 : Xᴴ * X = 1 := by
    subst hX; ext i j; fin_cases i <;> fin_cases j <;> norm_num [Matrix.mul_apply, Fin.sum_univ_succ]
  have h2 : Yᴴ * Y = 1 := by
    subst hY; ext i j; fin_cases i <;> fin_cases j <;> norm_num [Matrix.mul_apply, Fin.sum_univ_succ]
  have h3 : Y = X * (!![3 / 5, -4 / 5; 4 / 5, 3 / 5] : Matrix (Fin 2) (Fin 2) ℝ) := by
    subst hX hY; ext i j; fin_cases i <;> fin_cases j <;> norm_num [Matrix.mul_apply, Fin.sum_univ_two]
  refine ⟨orthonormal_iff.mpr fun _ => h1, orthonormal_iff.mpr fun _ => h2, fun _ => ?_,
    h1 ▸ isUnit_one, ?_, ?_⟩
  · have hC : (!![3 / 5, -4 / 5; 4 / 5, 3 / 5] : Matrix (Fin 2) (Fin 2) ℝ)ᴴ *
        !![3 / 5, -4 / 5; 4 / 5, 3 / 5] = 1 := by
      ext i j; fin_cases i <;> fin_cases j <;> norm_num [Matrix.mul_apply, Fin.sum_univ_two]
    have := range_mul_unitary X hC
    rwa [← h3] at this
  · subst hX hY
    rw [SameProduct]
    ext i j; fin_cases i <;> fin_cases j <;> norm_num [Matrix.mul_apply, Fin.sum_univ_two]
  · subst hX hY
    intro h
    have := congrFun (congrFun h 0) 0
    norm_num at this

/-- There is a projection of positive semidefinite matrices of fixed rank. -/
example {n : Type*} [Fintype n] {k : ℕ} : ∃ proj : Matrix n (Fin k) ℝ → Matrix n (Fin k) ℝ →
    Matrix n (Fin k) ℝ, ∀ Y V, IsPsdProj Y V (proj Y V) := by
  choose f hf using fun Y V : Matrix n (Fin k) ℝ => exists_lyapunov_gram Y V (-V)
  exact ⟨fun Y V => psdProjFrom Y V (f Y V), fun Y V => ⟨f Y V, by
    have := hf Y V
    rwa [conjTranspose_neg, Matrix.neg_mul, ← sub_eq_add_neg] at this, rfl⟩⟩

section packing
variable {N k : ℕ} {ε : ℝ}

/-- The entry of `X Xᵀ` along a line. -/
theorem gram_deriv {n p : Type*} [Fintype p] (X H : Matrix n p ℝ) (i j : n) :
    HasDerivAt (fun t : ℝ => ((X + t • H) * (X + t • H)ᵀ) i j) ((H * Xᵀ + X * Hᵀ) i j) 0 := by
  have e : (fun t : ℝ => ((X + t • H) * (X + t • H)ᵀ) i j) =
      fun t : ℝ => (X * Xᵀ) i j + t * (H * Xᵀ + X * Hᵀ) i j + t ^ 2 * (H * Hᵀ) i j := by
    funext t
    rw [transpose_add, transpose_smul, Matrix.add_mul, Matrix.mul_add, Matrix.mul_add]
    simp only [Matrix.add_apply, Matrix.smul_mul, Matrix.mul_smul, Matrix.smul_apply, smul_eq_mul]
    ring
  rw [e]
  refine HasDerivAt.congr_deriv ((((hasDerivAt_id (0 : ℝ)).mul_const _).const_add _).add
    (((hasDerivAt_id (0 : ℝ)).pow 2).mul_const _)) ?_
  simp

/-- The weight of a pair of points. -/
noncomputable def packWeight (ε : ℝ) (X : Matrix (Fin (N + 2)) (Fin k) ℝ) :
    Matrix (Fin (N + 2)) (Fin (N + 2)) ℝ :=
  of fun i j => if i < j then Real.exp ((X * Xᵀ) i j / ε) /
    ∑ x ∈ pairs (N + 2), Real.exp ((X * Xᵀ) x.1 x.2 / ε) else 0

/-- The mean of an array with these weights. -/
noncomputable def packMean (ε : ℝ) (X : Matrix (Fin (N + 2)) (Fin k) ℝ)
    (D : Matrix (Fin (N + 2)) (Fin (N + 2)) ℝ) : ℝ := ∑ i, ∑ j, packWeight ε X i j * D i j

theorem packSum_deriv (X H : Matrix (Fin (N + 2)) (Fin k) ℝ) :
    HasDerivAt (fun t : ℝ => ∑ x ∈ pairs (N + 2),
      Real.exp (((X + t • H) * (X + t • H)ᵀ) x.1 x.2 / ε))
      (∑ x ∈ pairs (N + 2), Real.exp ((X * Xᵀ) x.1 x.2 / ε) * ((H * Xᵀ + X * Hᵀ) x.1 x.2 / ε)) 0 := by
  refine HasDerivAt.fun_sum fun x _ => ?_
  have := ((gram_deriv X H x.1 x.2).div_const ε).exp
  simpa only [zero_smul, add_zero] using this

theorem packSum_pos (X : Matrix (Fin (N + 2)) (Fin k) ℝ) :
    0 < ∑ x ∈ pairs (N + 2), Real.exp ((X * Xᵀ) x.1 x.2 / ε) :=
  Finset.sum_pos (fun _ _ => Real.exp_pos _) (pairs_nonempty N)

theorem packMean_eq (X : Matrix (Fin (N + 2)) (Fin k) ℝ) (D : Matrix (Fin (N + 2)) (Fin (N + 2)) ℝ) :
    packMean ε X D = (∑ x ∈ pairs (N + 2), Real.exp ((X * Xᵀ) x.1 x.2 / ε) * D x.1 x.2) /
      ∑ x ∈ pairs (N + 2), Real.exp ((X * Xᵀ) x.1 x.2 / ε) := by
  obtain ⟨S, hS⟩ : ∃ S, ∑ x ∈ pairs (N + 2), Real.exp ((X * Xᵀ) x.1 x.2 / ε) = S := ⟨_, rfl⟩
  rw [packMean, hS, Finset.sum_div, pairs, Finset.sum_filter, Fintype.sum_prod_type]
  refine Finset.sum_congr rfl fun i _ => Finset.sum_congr rfl fun j _ => ?_
  rw [packWeight, of_apply, hS]
  split_ifs
  · ring
  · rw [zero_mul]

theorem packWeight_deriv (hε : 0 < ε) (X H : Matrix (Fin (N + 2)) (Fin k) ℝ) (i j : Fin (N + 2)) :
    HasDerivAt (fun t : ℝ => packWeight ε (X + t • H) i j)
      (packWeight ε X i j * (((H * Xᵀ + X * Hᵀ) i j - packMean ε X (H * Xᵀ + X * Hᵀ)) / ε)) 0 := by
  simp only [packWeight, of_apply]
  split_ifs with hij
  · have hS := packSum_pos (ε := ε) X
    have h1 := ((gram_deriv X H i j).div_const ε).exp
    have h2 := h1.div (packSum_deriv (ε := ε) X H) (by
      simp only [zero_smul, add_zero]
      exact hS.ne')
    refine h2.congr_deriv ?_
    rw [packMean_eq]
    simp only [zero_smul, add_zero]
    have e : ∑ x ∈ pairs (N + 2), Real.exp ((X * Xᵀ) x.1 x.2 / ε) * ((H * Xᵀ + X * Hᵀ) x.1 x.2 / ε) =
        (∑ x ∈ pairs (N + 2), Real.exp ((X * Xᵀ) x.1 x.2 / ε) * (H * Xᵀ + X * Hᵀ) x.1 x.2) / ε := by
      rw [Finset.sum_div]
      exact Finset.sum_congr rfl fun x _ => by ring
    rw [e]
    field_simp
  · simpa using hasDerivAt_const (0 : ℝ) (0 : ℝ)

theorem trDot_sums {m n : Type*} [Fintype m] [Fintype n] (A B : Matrix m n ℝ) :
    trDot A B = ∑ i, ∑ j, A i j * B i j := by
  rw [trDot_eq_sum]
  rfl

/-- The cost of packing_on_the_sphere.py, for at least two points, has a gradient and a Hessian. -/
theorem pack_smooth (hε : 0 < ε) : ∃ egrad ehess,
    IsGradient (E := Matrix (Fin (N + 2)) (Fin k) ℝ) trDot (packCost (N := N + 1) ε) egrad ∧
      IsHessian trDot egrad ehess := by
  refine ⟨fun X => (packWeight ε X + (packWeight ε X)ᵀ) * X, fun X H =>
    ((of fun i j => packWeight ε X i j *
      (((H * Xᵀ + X * Hᵀ) i j - packMean ε X (H * Xᵀ + X * Hᵀ)) / ε)) +
    (of fun i j => packWeight ε X i j *
      (((H * Xᵀ + X * Hᵀ) i j - packMean ε X (H * Xᵀ + X * Hᵀ)) / ε))ᵀ) * X +
      (packWeight ε X + (packWeight ε X)ᵀ) * H, fun X H => ?_, fun X H W => ?_⟩
  · simp only [packCost_eq hε]
    refine HasDerivAt.congr_deriv (((packSum_deriv X H).log (by
      simp only [zero_smul, add_zero]
      exact (packSum_pos X).ne')).const_mul ε) ?_
    simp only [zero_smul, add_zero]
    have e : trDot ((packWeight ε X + (packWeight ε X)ᵀ) * X) H = packMean ε X (H * Xᵀ + X * Hᵀ) := by
      have e1 : packMean ε X (H * Xᵀ + X * Hᵀ) = ((packWeight ε X)ᵀ * (H * Xᵀ + X * Hᵀ)).trace := by
        rw [← trDot_real, trDot_sums, packMean]
      have e2 : (Xᵀ * (packWeight ε X)ᵀ * H).trace = ((packWeight ε X)ᵀ * (H * Xᵀ)).trace := by
        rw [Matrix.mul_assoc, Matrix.trace_mul_comm, Matrix.mul_assoc]
      have e3 : (Xᵀ * packWeight ε X * H).trace = ((packWeight ε X)ᵀ * (X * Hᵀ)).trace := by
        rw [← Matrix.trace_transpose ((packWeight ε X)ᵀ * (X * Hᵀ)), transpose_mul, transpose_mul,
          transpose_transpose, transpose_transpose, Matrix.trace_mul_comm, Matrix.mul_assoc]
      rw [e1, trDot_real, transpose_mul, transpose_add, transpose_transpose, Matrix.mul_add,
        Matrix.add_mul, Matrix.mul_add, Matrix.trace_add, Matrix.trace_add, e2, e3]
    rw [e, packMean_eq, ← mul_div_assoc, Finset.mul_sum]
    congr 1
    exact Finset.sum_congr rfl fun x _ => by field_simp
  · simp only [trDot_sums]
    refine HasDerivAt.fun_sum fun i _ => HasDerivAt.fun_sum fun j _ => HasDerivAt.mul_const ?_ _
    simp only [Matrix.add_apply, Matrix.mul_apply, transpose_apply, of_apply]
    rw [← Finset.sum_add_distrib]
    refine HasDerivAt.fun_sum fun l _ => ?_
    have hX : HasDerivAt (fun t : ℝ => X l j + (t • H) l j) (H l j) 0 := by
      simpa using ((hasDerivAt_id (0 : ℝ)).mul_const (H l j)).const_add (X l j)
    have := ((packWeight_deriv hε X H i l).add (packWeight_deriv hε X H l i)).mul hX
    refine this.congr_deriv ?_
    simp only [zero_smul, add_zero, Matrix.zero_apply, Pi.add_apply, Matrix.add_apply, Matrix.mul_apply,
      transpose_apply]

end packing

end Verif.Geo
