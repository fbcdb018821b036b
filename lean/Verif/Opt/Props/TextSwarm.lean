/-
C159: the text that runs of `ParticleSwarm` print.
-/
import Verif.Opt.Props.Text

namespace Verif.Opt
open PyNum Verif.Core

section
variable {F P E : Type*} [PyNum F]

/-- The messages of a run that returns: one row per iteration, with the number of evaluations, which
grows by the size of the population, and the best cost, which is that of the result in the last
row. -/
theorem psoMessages {o : PSOObj F} (hv : 2 ≤ o.verbosity) {rnd : PSORand F P E} {pb : Prob F P E}
    {clk : Clock F} {init : InitArg P} {l : List (Message F)} {r : Result F P} {t : List P × List P}
    (h : PSOPrints o rnd pb clk init l (.ok (r, t))) :
    ∃ (n : ℕ) (bs : List F), 0 < n ∧
      l = psoWarns (o.resolve pb.M.dim) init ++ [.header] ++
        bs.mapIdx (fun i b => .swarmRow ((i : ℤ) + 1) (((i : ℤ) + 1) * n) b) ++ [.finished r.stop] ∧
      (bs.length : ℤ) = r.iterations ∧ bs.getLast? = some r.cost ∧
      r.costEvaluations = some (r.iterations * n) ∧ (∀ xs, init = .list xs → n = xs.length) ∧
      r.iterations ≤ (o.resolve pb.M.dim).cfg.maxIterations := by
  unfold PSOPrints at h
  split at h
  · cases h.2
  · cases h.2
  rename_i o' x0 xs isT hpop
  have hsize : o'.populationSize.getD 0 = ((x0 :: xs).length : ℤ) ∧ o'.verbosity = o.verbosity ∧
      o'.cfg.maxIterations = (o.resolve pb.M.dim).cfg.maxIterations ∧
      ∀ ys, init = .list ys → (x0 :: xs).length = ys.length := by
    cases init with
    | none draws =>
      simp only [psoPopulation, Except.ok.injEq, Prod.mk.injEq] at hpop
      obtain ⟨rfl, hl, -⟩ := hpop
      have := congrArg List.length hl
      simp only [List.length_map, List.length_range, List.length_cons] at this
      refine ⟨?_, rfl, rfl, fun _ h => by cases h⟩
      simp only [List.length_cons]
      omega
    | list l =>
      simp only [psoPopulation, Except.ok.injEq, Prod.mk.injEq] at hpop
      obtain ⟨rfl, rfl, -⟩ := hpop
      exact ⟨rfl, rfl, rfl, fun _ h => by cases h; rfl⟩
    | tuple l =>
      simp only [psoPopulation, Except.ok.injEq, Prod.mk.injEq] at hpop
      obtain ⟨rfl, rfl, -⟩ := hpop
      exact ⟨rfl, rfl, rfl, fun _ h => by cases h⟩
    | other => simp [psoPopulation] at hpop
  obtain ⟨hsize, hverb, hmaxeq, hlist⟩ := hsize
  have hv' : 2 ≤ o'.verbosity := by omega
  split at h
  · cases h.2
  rename_i hset
  obtain ⟨l', h, rfl⟩ := h
  have hmax : 1 ≤ o'.cfg.maxIterations := by
    unfold printerSetup at hset
    rw [if_pos (show o'.cfg.verbosity ≥ 2 from hv')] at hset
    split_ifs at hset
    omega
  set n := (x0 :: xs).length with hn
  have hnpos : 0 < n := by simp [hn]
  have key := h.invariant
    (fun l _ s => ∃ bs : List F, l = bs.mapIdx (fun i b => .swarmRow ((i : ℤ) + 1) (((i : ℤ) + 1) * n) b) ∧
      (bs.length : ℤ) = s.iteration ∧ s.costEvaluations = (s.iteration + 1) * (n : ℤ) ∧
      s.swarm.length = n ∧ s.iteration < o'.cfg.maxIterations)
    (fun l r => ∀ q, r = .ok q → ∃ bs : List F,
      l = bs.mapIdx (fun i b => .swarmRow ((i : ℤ) + 1) (((i : ℤ) + 1) * n) b) ++ [.finished q.1.stop] ∧
      (bs.length : ℤ) = q.1.iterations ∧ bs.getLast? = some q.1.cost ∧
      q.1.costEvaluations = some (q.1.iterations * (n : ℤ)) ∧ q.1.iterations ≤ o'.cfg.maxIterations)
    ?_ ?_ ?_ [] ?_
  · obtain ⟨bs, h1, h2, h3, h4, h5⟩ := key _ rfl
    refine ⟨n, bs, hnpos, ?_, h2, h3, h4, hlist, hmaxeq ▸ h5⟩
    rw [List.nil_append] at h1
    rw [h1, say_of_le hv, List.append_assoc (_ ++ _)]
  · rintro l a s s' ⟨bs, rfl, h2, h3, h4, h5⟩ hst
    have hout : (psoSays o' isT rnd pb clk a s).1 =
        [.swarmRow (s.iteration + 1) s.costEvaluations s.fbest] := by
      simp [psoSays, say_of_le hv', sayFinished, hst]
    rw [hout]
    obtain ⟨w, swarm, hstop, hsw, -, rfl⟩ := psoStep_next hst
    refine ⟨bs ++ [s.fbest], ?_, ?_, ?_, ?_, ?_⟩
    · rw [List.mapIdx_append, h3]
      simp [h2]
    · simp [h2]
    · simp only [hsize, h3]
      ring
    · simp only [psoMoves_length, hsw, List.length_mapIdx, h4]
    · simp only
      unfold psoStop at hstop
      rw [List.findSome?_eq_none_iff] at hstop
      exact checkStop_none_lt (hstop 0 (by simp [h4, hnpos]))
  · rintro l a s q ⟨bs, rfl, h2, h3, h4, h5⟩ hst q' hq
    cases hq
    have hout : (psoSays o' isT rnd pb clk a s).1 =
        [.swarmRow (s.iteration + 1) s.costEvaluations s.fbest, .finished q.1.stop] := by
      simp [psoSays, say_of_le hv', sayFinished, hst, say_of_le (show 1 ≤ o'.verbosity by omega)]
    rw [hout]
    obtain ⟨reason, -, rfl⟩ := psoStep_brk hst
    refine ⟨bs ++ [s.fbest], ?_, ?_, ?_, ?_, ?_⟩
    · rw [List.mapIdx_append, h3]
      simp [h2]
    · simp [h2]
    · simp
    · simp only [h3]
    · simp only
      omega
  · intro l a s e _ _ q hq
    cases hq
  · exact ⟨[], rfl, rfl, by simp [psoInit, hsize], by simp [psoInit, hn], by simp [psoInit]; omega⟩

/-- The text of a run of `ParticleSwarm`: the lines `before`, two lines of header, one line per best
cost of `bs`, the reason to stop and an empty line.  All lines of the table have the same length;
each row consists of the number of the iteration, the number of evaluations, `n` per iteration, and a
number that differs from the best cost by at most half a unit of the ninth significant digit. -/
def IsSwarmTable (n : ℕ) (bs : List (XF ℚ)) (before : List (List Char)) (reason : List Char)
    (lines : List (List Char)) : Prop :=
  ∃ h u : List Char, ∃ rows : List (List Char),
    lines = before ++ [h, u] ++ rows ++ [reason, []] ∧
    words h = ["Iteration".toList, "Cost".toList, "evaluations".toList, "Best".toList,
      "cost".toList] ∧
    u.length = h.length ∧ rows.length = bs.length ∧
    ∀ (i : ℕ) (v : XF ℚ), bs[i]? = some v → ∃ line, rows[i]? = some line ∧ line.length = h.length ∧
      ∃ a b c, words line = [a, b, c] ∧ readSigned a = (i : ℤ) + 1 ∧
        readSigned b = ((i : ℤ) + 1) * n ∧
        ∀ q, v = .fin q → |readNumber c - q| ≤ |q| / (2 * 10 ^ 8)

theorem words_swarmHeader (m : ℤ) : ∃ h u, (tableOf (swarmColumns m)).header = .ok (h, u) ∧
    words h = ["Iteration".toList, "Cost".toList, "evaluations".toList, "Best".toList,
      "cost".toList] := by
  have hw := swarm_widths m
  have : tableOf (swarmColumns m) = ⟨swarmColumns m, 4,
      [max 9 (iterationWidth m : ℤ) + 4, 20, 19]⟩ := by rw [← hw]; rfl
  rw [this]
  refine ⟨_, _, rfl, ?_⟩
  simp only [swarmColumns, List.zip_cons_cons, List.zip_nil_right, List.map_cons, List.map_nil,
    List.flatten_cons, List.flatten_nil, spaces]
  have e : "Cost evaluations".toList =
      "Cost".toList ++ List.replicate 1 ' ' ++ "evaluations".toList := by decide
  have e' : "Best cost".toList = "Best".toList ++ List.replicate 1 ' ' ++ "cost".toList := by decide
  have l1 : ("Iteration".toList.length : ℤ) = 9 := by decide
  have l2 : ("Cost evaluations".toList.length : ℤ) = 16 := by decide
  have l3 : ("Best cost".toList.length : ℤ) = 9 := by decide
  rw [l1, l2, l3, words_cell (by decide) (by decide) (by omega), e, e']
  simp only [List.append_assoc]
  rw [← List.append_assoc, words_cell (by decide) (by decide) (by decide), ← List.append_assoc,
    words_cell (by decide) (by decide) (by decide), ← List.append_assoc,
    words_cell (by decide) (by decide) (by decide), ← List.append_assoc,
    words_cell (by decide) (by decide) (by decide), words_nil]

/-- **C159** for runs of `ParticleSwarm` that print tables, with fewer than `10 ^ 19` evaluations:
the lines printed up to the end.  Before the table there is at most the sentence about the size of
the population; the last best cost is the cost of the result. -/
theorem C159_particleSwarm {o : PSOObj F} (hv : 2 ≤ o.verbosity) {rnd : PSORand F P E}
    {pb : Prob F P E} {clk : Clock F} {init : InitArg P} {l : List (Message F)} {r : Result F P}
    {t : List P × List P} (h : PSOPrints o rnd pb clk init l (.ok (r, t))) (val : F → XF ℚ)
    (hval : ∀ i n b, Message.swarmRow i n b ∈ l → InRangeX (val b))
    (hmany : ∀ k, r.costEvaluations = some k → k < 10 ^ 19) :
    ∃ (n : ℕ) (bs : List F) (before : List (List Char)), 0 < n ∧
      (bs.length : ℤ) = r.iterations ∧ bs.getLast? = some r.cost ∧
      r.costEvaluations = some (r.iterations * n) ∧
      (before = [] ∨ before =
        ["The population size was forced to the size of the given initial population".toList]) ∧
      IsSwarmTable n (bs.map val) before (r.stop.text val)
        (l.flatMap (Message.lines val o.verbosity
          (tableOf (swarmColumns (o.resolve pb.M.dim).cfg.maxIterations)))) := by
  obtain ⟨n, bs, hn, rfl, hlen, hlast, hcount, -, hmax⟩ := psoMessages hv h
  set m := (o.resolve pb.M.dim).cfg.maxIterations
  obtain ⟨hd, u, hh, hwords⟩ := words_swarmHeader m
  have hul : u.length = hd.length := by
    obtain ⟨h', u', e, a1, a2⟩ := C48_header (swarmColumns m) none (.int 0) 4 (by norm_num) _
      (tableOf_mk (by simp [swarmColumns])) (by simp)
    rw [hh] at e
    cases e
    have := a1.1.trans a2.1.symm
    omega
  refine ⟨n, bs, (psoWarns (o.resolve pb.M.dim) init).flatMap
    (Message.lines val o.verbosity (tableOf (swarmColumns m))), hn, hlen, hlast, hcount, ?_, hd, u,
    bs.mapIdx fun i b => (tableOf (swarmColumns m)).row
      [.int (i + 1), .int ((i + 1) * n), .num (val b)], ?_, hwords, hul, by simp, ?_⟩
  · cases init <;> simp only [psoWarns] <;> (try split) <;> simp [Message.lines]
  · simp only [List.flatMap_append, List.flatMap_cons, List.flatMap_nil, Message.lines, hh,
      List.append_nil]
    congr 2
    rw [List.mapIdx_eq_zipIdx_map, List.mapIdx_eq_zipIdx_map, List.flatMap_map]
    simp only [Message.lines]
    exact List.flatMap_pure_eq_map _ _
  · intro i v hiv
    rw [List.getElem?_map, Option.map_eq_some_iff] at hiv
    obtain ⟨b, hb, rfl⟩ := hiv
    have hi := (List.getElem?_eq_some_iff.1 hb).1
    have hrange : InRangeX (val b) := by
      refine hval (i + 1) ((i + 1) * n) b ?_
      simp only [List.mem_append]
      exact Or.inl (Or.inr (List.mem_iff_getElem?.2 ⟨i, by rw [List.getElem?_mapIdx, hb]; rfl⟩))
    have hi' : (i : ℤ) + 1 ≤ r.iterations := by rw [← hlen]; omega
    have hfew : ((i : ℤ) + 1) * n < 10 ^ 19 := by
      refine lt_of_le_of_lt ?_ (hmany _ hcount)
      exact mul_le_mul_of_nonneg_right hi' (by omega)
    refine ⟨_, by rw [List.getElem?_mapIdx, hb]; rfl, ?_⟩
    obtain ⟨⟨h', u', e, l1, -⟩, -, hw⟩ := C159_swarmTable (m := m) (i := (i : ℤ) + 1)
      (n := ((i : ℤ) + 1) * n) (by omega) (by omega) (by positivity) hfew hrange
    rw [hh] at e
    cases e
    refine ⟨l1.symm, _, _, _, hw, readSigned_intText _, readSigned_intText _, ?_⟩
    intro q hq
    rw [hq]
    exact C159_accuracy true 8 q

end

/-- One particle, where ten are configured by default, with a table. -/
def oneTable : PSOObj Q := { oneParticle with populationSize := none, verbosity := 2 }

/-- The object after the defaults are filled in. -/
def oneTable' : PSOObj Q := { oneTable.resolve 1 with populationSize := some 1 }

/-- Rows with values in the range. -/
def rowInRange : Message Q → Bool
  | .swarmRow _ _ b => decide (InRangeX b.v)
  | _ => true

/-- A run whose values are in the range. -/
example : ∃ l r t, PSOPrints oneTable oneRand squareProb stillClock (.list [.npy 3]) l (.ok (r, t)) ∧
    4 ≤ l.length ∧ (∀ i n b, Message.swarmRow i n b ∈ l → InRangeX b.v) ∧
    ∀ k, r.costEvaluations = some k → k < 10 ^ 19 := by
  have he := exists_of_checkPrints (n := 3) (a := ())
    (p := fun l r => decide (2 ≤ l.length) && l.all rowInRange &&
      isOk (fun q => decide (q.1.costEvaluations.getD 0 < 10 ^ 19)) r)
    (step := psoStep oneTable' false oneRand squareProb stillClock)
    (out := psoSays oneTable' false oneRand squareProb stillClock)
    (s := psoInit oneTable' oneRand squareProb (.npy 3) []) (by decide +kernel)
  obtain ⟨l, r, hr, he⟩ := he
  rw [Bool.and_eq_true, Bool.and_eq_true] at he
  obtain ⟨⟨r, t⟩, rfl, hk⟩ := exists_of_isOk he.2
  refine ⟨[.sizeForced] ++ [.header] ++ l, r, t, ⟨_, hr, rfl⟩, ?_, ?_, fun k hk' => ?_⟩
  · have := of_decide_eq_true he.1.1
    simp only [List.length_append, List.length_singleton]
    omega
  · intro i n b hm
    simp only [List.mem_append, List.mem_singleton, reduceCtorEq, false_or] at hm
    exact of_decide_eq_true (List.all_eq_true.1 he.1.2 _ hm)
  · have := of_decide_eq_true hk
    rwa [hk'] at this

end Verif.Opt
