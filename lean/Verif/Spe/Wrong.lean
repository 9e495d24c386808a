import Verif.Spe.CondProps

set_option linter.all false

/-!
# Conditioning and simplification: counterexamples

SPEs for which `condition` or `spe_simplify_sum` is wrong, and more examples.
-/

namespace Sppl
open Classical MeasureTheory
open scoped ENNReal ProbabilityTheory

/-! ### Nominal leaves and events `Y == 'x'` -/

theorem strEv_subst (n : ℕ) (Y x : String) : leafSubst ctx0 (n + 1) Y [(Y, .id Y)] (strEv Y x) = .ok (strEv Y x) := by
  have hno : ¬ exprInEnv (strEv Y x).symbols [(Y, .id Y)] := by rintro ⟨s, -, hs⟩; exact hs (single_get Y s)
  have hsub : (strEv Y x).substitute ctx0 (n + 1) [(Y, .id Y)] (n + 1) = .ok (strEv Y x) := by simp [Ev.substitute, hno]
  unfold leafSubst
  rw [hsub]
  simp [bind, Except.bind, strEv, Ev.symbols, Tr.symbols]

theorem strEv_solve (n : ℕ) (Y x : String) : (strEv Y x).solve ctx0 (n + 1) = .ok (.pc (.nom ⟨{x}, none⟩)) := by simp [strEv, Ev.solve, optNom]

theorem strEv_event (Y x : String) : factorEvent ctx0 [[(Y, strEv Y x)]] = .ok (strEv Y x) := by
  simp [factorEvent, reduceM, bind, Except.bind, pure, Except.pure, List.mapM_cons]

theorem strEv_normal (n : ℕ) (Y x : String) : dnfNormalize ctx0 n (strEv Y x) = .ok (some (strEv Y x)) := by
  simp [dnfNormalize, Ev.isIdLit, Ev.basic?, strEv, Tr.isId]

theorem strEv_factor (Y x : String) : dnfFactor1 ctx0 (strEv Y x) = .ok [[(Y, strEv Y x)]] := by
  simp [dnfFactor1, dnfFactor, strEv, factorClause, factorLit, Ev.symbol1, Ev.symbols, Ev.symbolsL, Tr.symbols, selfLookup,
      bind, Except.bind, pure, Except.pure, List.mapM_cons]

section
variable {n : ℕ} {Y x : String} {dist : List (String × ℚ)}

theorem nominal_values (hx : x ∈ dist.map Prod.fst) : nominalValues ctx0 dist (.pc (.nom ⟨{x}, none⟩)) = .ok (.pc (.nom ⟨{x}, none⟩)) := by
  unfold nominalValues mkNom
  have : Finset.filter (fun z => z = x) (dist.map Prod.fst).toFinset = {x} := by
    ext z
    rw [Finset.mem_filter, List.mem_toFinset, Finset.mem_singleton]
    exact ⟨fun h => h.2, fun h => ⟨h ▸ hx, h⟩⟩
  have hne : dist ≠ [] := by rintro rfl; simp at hx
  have hx' : x ∈ (dist.map Prod.fst).toFinset := List.mem_toFinset.2 hx
  simp [-List.mem_toFinset, -List.mem_map, bind, Except.bind, SSet.and, Piece.and, Nom.and, Nom.neg, nomOrEmpty, this, mkNom, Nom.has, Nom.WF, hne, hx']

theorem nominal_values_not (hne : dist ≠ []) (hx : x ∉ dist.map Prod.fst) : nominalValues ctx0 dist (.pc (.nom ⟨{x}, none⟩)) = .ok .empty := by
  unfold nominalValues mkNom
  have hx' : x ∉ (dist.map Prod.fst).toFinset := fun h => hx (List.mem_toFinset.1 h)
  simp [-List.mem_toFinset, -List.mem_map, bind, Except.bind, SSet.and, Piece.and, Nom.and, Nom.neg, nomOrEmpty, mkNom, Nom.has, Nom.WF, hne, hx']

theorem nominal_mass {p : ℚ} (h : dist.lookup x = some p) : nominalMass dist {x} = .ok p := by
  unfold nominalMass
  simp [bind, Except.bind, pure, Except.pure, List.mapM_cons, h]

theorem nominal_mem {p : ℚ} (hx : x ∈ dist.map Prod.fst) (h : dist.lookup x = some p) (L : Lib) :
    (Spe.nominal Y dist).probMem ctx0 L (n + 1) [[(Y, strEv Y x)]] = .ok (p : ℝ) := by
  simp only [Spe.probMem, strEv_event, leafProb, Spe.leafEnv, strEv_subst, strEv_solve, leafProbSet, nominal_values hx, nominal_mass h, bind, Except.bind]
  simp

theorem nominal_mem_not (hne : dist ≠ []) (hx : x ∉ dist.map Prod.fst) (L : Lib) :
    (Spe.nominal Y dist).probMem ctx0 L (n + 1) [[(Y, strEv Y x)]] = .ok 0 := by
  simp only [Spe.probMem, strEv_event, leafProb, Spe.leafEnv, strEv_subst, strEv_solve, leafProbSet, nominal_values_not hne hx, bind, Except.bind]

theorem nominal_cond {p : ℚ} (hx : x ∈ dist.map Prod.fst) (h : dist.lookup x = some p) (L : Lib) (hash : Spe → ℤ) :
    (Spe.nominal Y dist).condMem ctx0 L hash (n + 1) [[(Y, strEv Y x)]] = condNominal Y dist {x} p := by
  simp only [Spe.condMem, strEv_event, leafCond, Spe.leafEnv, strEv_subst, strEv_solve, leafCondSet, nominal_values hx, nominal_mass h, bind, Except.bind]
end

/-! ### C22: weights zero -/

/-- A mixture `1 * (Y = 'a') | 0 * (Y = 'b')`. -/
noncomputable def zeroMix : Spe := .sum [.nominal "Y" [("a", 1)], .nominal "Y" [("b", 1)]] [1, 0]

theorem zeroMix_mk : mkSum [.nominal "Y" [("a", 1)], .nominal "Y" [("b", 1)]] [1, 0] = .ok zeroMix := by
  unfold mkSum
  have : areIdentical (Spe.symbolsL [.nominal "Y" [("a", 1)], .nominal "Y" [("b", 1)]]) = true := by
    rw [areIdentical_iff]; simp [Spe.symbolsL, Spe.symbols]
  simp [Spe.sumChildren, Spe.sumWeights, this, zeroMix]

/-- C22 counterexample: the event `Y == 'b'` has probability zero, but `condition` returns an SPE, in which it is certain: the children are
selected by their own probability, without regard to their weight. -/
theorem C22_zero_weight_wrong (L : Lib) (hash : Spe → ℤ) (n : ℕ) :
    mkSum [.nominal "Y" [("a", 1)], .nominal "Y" [("b", 1)]] [1, 0] = .ok zeroMix ∧
    zeroMix.prob ctx0 L (n + 1) (strEv "Y" "b") = .ok 0 ∧
    zeroMix.condition ctx0 L hash (n + 1) (strEv "Y" "b") = .ok (.nominal "Y" [("b", 1)]) := by
  have ha := nominal_mem_not (n := n) (Y := "Y") (x := "b") (dist := [("a", 1)]) (by simp) (by simp) L
  have hb := nominal_mem (n := n) (Y := "Y") (x := "b") (dist := [("b", 1)]) (p := 1) (by simp) (by simp) L
  have hc := nominal_cond (n := n) (Y := "Y") (x := "b") (dist := [("b", 1)]) (p := 1) (by simp) (by simp) L hash
  refine ⟨zeroMix_mk, ?_, ?_⟩
  · unfold Spe.prob
    rw [if_neg (by simp [zeroMix, Spe.isLeaf, Spe.leafEnv])]
    simp only [strEv_normal, strEv_factor, bind, Except.bind]
    unfold zeroMix
    rw [Spe.probMem]
    simp [Spe.probMemL, callAll, List.mapM_cons, List.mapM_nil, ha, hb, bind, Except.bind, pure, Except.pure, mixSum]
  · unfold Spe.condition
    rw [if_neg (by simp [zeroMix, Spe.isLeaf, Spe.leafEnv])]
    have hd : dropNull ctx0 L (n + 1) zeroMix (strEv "Y" "b") = .ok (strEv "Y" "b") := by simp [dropNull, strEv]
    have ht : toDisjoint ctx0 (n + 1) (n + 1) (strEv "Y" "b") = .ok (strEv "Y" "b") := by simp [toDisjoint, strEv]
    simp only [strEv_normal, strEv_factor, hd, ht, bind, Except.bind]
    unfold zeroMix
    rw [Spe.condMem]
    simp [Spe.probMemL, Spe.condMemL, callAll, List.mapM_cons, List.mapM_nil, ha, hb, hc, bind, Except.bind, pure, Except.pure, condSum, condNominal]

/-! ### C25: equality and hashes of atomic leaves -/

/-- `Y = X + k` over `X = 0`. -/
noncomputable def shifted (k : ℝ) : Spe := .atomic "X" 0 [("X", .id "X"), ("Y", .poly (.id "X") [k, 1])]

/-- C25 counterexample: `hash` and `==` of atomic leaves do not look at the derived variables (spe.py 957-963), so two different leaves are merged. -/
theorem C25_environment_wrong (hash : Spe → ℤ) (hh : ∀ X v env env', hash (.atomic X v env) = hash (.atomic X v env')) (μ : Dist → Measure ℝ) :
    mkSum [shifted 1, shifted 2] [1/2, 1/2] = .ok (.sum [shifted 1, shifted 2] [1/2, 1/2]) ∧
    simplifySum hash (.sum [shifted 1, shifted 2] [1/2, 1/2]) = .ok (shifted 1) ∧
    (shifted 1).den μ ≠ (Spe.sum [shifted 1, shifted 2] [1/2, 1/2]).den μ := by
  refine ⟨?_, ?_, ?_⟩
  · unfold mkSum
    have : areIdentical (Spe.symbolsL [shifted 1, shifted 2]) = true := by
      rw [areIdentical_iff]; simp [Spe.symbolsL, Spe.symbols, shifted]
    have e1 : (shifted 1).sumChildren = [shifted 1] := rfl
    have e2 : (shifted 2).sumChildren = [shifted 2] := rfl
    have e3 (k w) : (shifted k).sumWeights w = [w] := rfl
    norm_num [this, e1, e2, e3]
    intro h; simp at h
  · unfold simplifySum
    have : hash (shifted 1) = hash (shifted 2) := hh _ _ _ _
    have e1 : (shifted 1).isLeaf = true := rfl
    have e2 : (shifted 2).isLeaf = true := rfl
    simp [e1, e2, simplifySumLeaf, partitionBlocks, this, List.zipIdx]
    simp [shifted, Spe.hashable]
  · intro h
    have h1 : Measurable (fun ω : Asg => ω "Y") := measurable_pi_apply "Y"
    have hm : MeasurableSet {ω : Asg | ω "Y" = some (.num 1)} := by
      have := h1 (measurableSet_nums (measurableSet_singleton (1 : ℝ)))
      simpa [Set.preimage] using this
    have := congrArg (fun m => m {ω : Asg | ω "Y" = some (.num 1)}) h
    simp [Spe.den, Spe.denL, mixture, Measure.dirac_apply' _ hm, Env.extend, baseAsg, shifted, Tr.eval, Set.indicator, onNum, polyVal] at this
    have t := congrArg ENNReal.toReal this
    norm_num at t

/-- C25 counterexample: leaves are merged when their hashes are equal, even if they are not `==`.  In CPython `hash(-1) == hash(-2)`, so the
mixture of `X = -1` and `X = -2` becomes `X = -1`. -/
theorem C25_hash_collision_wrong (hash : Spe → ℤ) (hh : hash (.atomic "X" (-1) [("X", .id "X")]) = hash (.atomic "X" (-2) [("X", .id "X")]))
    (μ : Dist → Measure ℝ) :
    Spe.eqPy (.atomic "X" (-1) [("X", .id "X")]) (.atomic "X" (-2) [("X", .id "X")]) = false ∧
    simplifySum hash (.sum [.atomic "X" (-1) [("X", .id "X")], .atomic "X" (-2) [("X", .id "X")]] [1/2, 1/2]) = .ok (.atomic "X" (-1) [("X", .id "X")]) ∧
    (Spe.atomic "X" (-1) [("X", .id "X")]).den μ ≠
      (Spe.sum [.atomic "X" (-1) [("X", .id "X")], .atomic "X" (-2) [("X", .id "X")]] [1/2, 1/2]).den μ := by
  refine ⟨by norm_num [Spe.eqPy], ?_, ?_⟩
  · unfold simplifySum
    simp [Spe.isLeaf, Spe.leafEnv, simplifySumLeaf, partitionBlocks, hh, List.zipIdx, Spe.hashable]
  · intro h
    have h1 : Measurable (fun ω : Asg => ω "X") := measurable_pi_apply "X"
    have hm : MeasurableSet {ω : Asg | ω "X" = some (.num (-1))} := by
      have := h1 (measurableSet_nums (measurableSet_singleton (-1 : ℝ)))
      simpa [Set.preimage] using this
    have := congrArg (fun m => m {ω : Asg | ω "X" = some (.num (-1))}) h
    simp [Spe.den, Spe.denL, mixture, Measure.dirac_apply' _ hm, Env.extend, baseAsg, Tr.eval] at this
    have t := congrArg ENNReal.toReal this
    norm_num at t

/-! ### C21: a variable that is a number or a string -/

/-- `X` is a number or the string `a`; `Y` is a coin. -/
noncomputable def mixed : Spe := .prod [.sum [leafX "X", .nominal "X" [("a", 1)]] [1/2, 1/2], coin "Y"]

theorem mixed_normal (n : ℕ) : dnfNormalize ctx0 n overlapE = .ok (some overlapE) := by
  simp [overlapE, dnfNormalize, Ev.isIdLit, Ev.basic?, nomE, normalizeBody, Ev.toDnf, Ev.toDnfList, Ev.toDnfListL, simplifyEvent, dnfFactor1, dnfFactor,
      factorClause, factorLoop, factorLit, Ev.symbol1, Ev.symbols, Ev.symbolsL, Tr.symbols, selfLookup, 
      solveClause, Ev.solve, optNom, SSet.isEmpty, dedupSols, solConj, Tr.inSet, reduceM, Ev.lor, Ev.simplify, Ev.disjuncts, Sol.eqPy, List.lookup,
      bind, Except.bind, pure, Except.pure, List.mapM_cons]

theorem mixed_factor : dnfFactor1 ctx0 overlapR = .ok [[("X", nomE "X" "a")], [("Y", nomE "Y" "b"), ("X", nomN "X" "a")]] := by
  simp [overlapR, dnfFactor1, dnfFactor, nomE, nomN, factorClause, factorLoop, factorLit, Ev.symbol1, Ev.symbols, Ev.symbolsL, Tr.symbols, selfLookup,
      Clause.addAnd, Ev.basic?, bind, Except.bind, pure, Except.pure, List.mapM_cons]

theorem inclExcl_one {f : List ℕ → Res ℝ} {p : ℝ} (h : f [0] = .ok p) : inclExcl 1 f = .ok p := by
  rw [inclExcl]
  have hloop : ieLoop 1 f ((List.range 1).map (fun i => ([i], i))) [] [] [] = .ok ([p], []) := by
    simp only [List.range_succ, List.range_zero, List.nil_append, List.map_cons, List.map_nil, List.cons_append]
    rw [ieLoop]; simp only [isBad, List.any_nil, Bool.false_eq_true, if_false, h, ieNext, List.cons_append, List.nil_append, List.range', List.map_cons, List.map_nil]
    norm_num
    rw [ieLoop]
  rw [hloop]
  simp [bind, Except.bind]

theorem inclExcl_two {f : List ℕ → Res ℝ} {p q r : ℝ} (h0 : f [0] = .ok p) (h1 : f [1] = .ok q) (h2 : f [0, 1] = .ok r) (hp : p ≠ 0) (hq : 0 < q)
    (hs : r < p + q) (hpq : p + q ≠ 0) : inclExcl 2 f = .ok (p + q - r) := by
  rw [inclExcl]
  have hloop : ieLoop 2 f ((List.range 2).map (fun i => ([i], i))) [] [] [] = .ok ([p, q], [r]) := by
    simp only [List.range_succ, List.range_zero, List.nil_append, List.map_cons, List.map_nil, List.cons_append]
    rw [ieLoop]; simp only [isBad, List.any_nil, Bool.false_eq_true, if_false, h0, ieNext, List.cons_append, List.nil_append, List.range', List.map_cons, List.map_nil]
    norm_num [hp]
    rw [ieLoop]; simp only [isBad, List.any_nil, Bool.false_eq_true, if_false, h1, ieNext, List.cons_append, List.nil_append, List.range', List.map_cons, List.map_nil]
    norm_num [hq.ne']
    rw [ieLoop]; simp only [isBad, List.any_nil, Bool.false_eq_true, if_false, h2, ieNext, List.cons_append, List.nil_append, List.range', List.map_cons, List.map_nil]
    norm_num
    rw [ieLoop]
  rw [hloop]
  simp [bind, Except.bind, pdiff, hs, hpq]

theorem inclExcl_two_zero {f : List ℕ → Res ℝ} {p : ℝ} (h0 : f [0] = .ok p) (h1 : f [1] = .ok 0) (hp : p ≠ 0) : inclExcl 2 f = .ok p := by
  rw [inclExcl]
  have hloop : ieLoop 2 f ((List.range 2).map (fun i => ([i], i))) [] [] [] = .ok ([p, 0], []) := by
    simp only [List.range_succ, List.range_zero, List.nil_append, List.map_cons, List.map_nil, List.cons_append]
    rw [ieLoop]; simp only [isBad, List.any_nil, Bool.false_eq_true, if_false, h0, ieNext, List.cons_append, List.nil_append, List.range', List.map_cons, List.map_nil]
    norm_num [hp]
    rw [ieLoop]; simp only [isBad, List.any_nil, Bool.false_eq_true, if_false, h1, ieNext, List.cons_append, List.nil_append, List.range', List.map_cons, List.map_nil]
    norm_num
    rw [ieLoop]; simp only [isBad]
    norm_num
    rw [ieLoop]
  rw [hloop]
  simp [bind, Except.bind]

theorem leafX_str (L : Lib) (n : ℕ) (x : String) (b : Option Bool) : (leafX "X").probMem ctx0 L (n + 1) [[("X", .nom (.id "X") (some ⟨{x}, b⟩))]] = .ok 0 := by
  have h0 : factorEvent ctx0 [[("X", .nom (.id "X") (some ⟨{x}, b⟩))]] = .ok (.nom (.id "X") (some ⟨{x}, b⟩)) := by
    simp [factorEvent, reduceM, bind, Except.bind, pure, Except.pure, List.mapM_cons]
  have h1 : leafSubst ctx0 (n + 1) "X" [("X", .id "X")] (.nom (.id "X") (some ⟨{x}, b⟩)) = .ok (.nom (.id "X") (some ⟨{x}, b⟩)) := by
    have hno : ¬ exprInEnv (Ev.nom (.id "X") (some ⟨{x}, b⟩)).symbols [("X", .id "X")] := by rintro ⟨s, -, hs⟩; exact hs (single_get "X" s)
    have hsub : (Ev.nom (.id "X") (some ⟨{x}, b⟩)).substitute ctx0 (n + 1) [("X", .id "X")] (n + 1) = .ok (.nom (.id "X") (some ⟨{x}, b⟩)) := by
      simp [Ev.substitute, hno]
    unfold leafSubst
    rw [hsub]
    simp [bind, Except.bind, Ev.symbols, Tr.symbols]
  have h2 : (Ev.nom (.id "X") (some ⟨{x}, b⟩)).solve ctx0 (n + 1) = .ok (.pc (.nom ⟨{x}, b⟩)) := by simp [Ev.solve, optNom]
  unfold leafX
  simp only [Spe.probMem, h0, leafProb, Spe.leafEnv, h1, h2, leafProbSet, bind, Except.bind]
  simp [SSet.and, Piece.and, RLeaf.probValues]

theorem nomN_mem (L : Lib) (n : ℕ) : (Spe.nominal "X" [("a", 1)]).probMem ctx0 L (n + 1) [[("X", nomN "X" "a")]] = .ok 0 := by
  have h0 : factorEvent ctx0 [[("X", nomN "X" "a")]] = .ok (nomN "X" "a") := by
    simp [factorEvent, reduceM, bind, Except.bind, pure, Except.pure, List.mapM_cons]
  have h1 : leafSubst ctx0 (n + 1) "X" [("X", .id "X")] (nomN "X" "a") = .ok (nomN "X" "a") := by
    have hno : ¬ exprInEnv (nomN "X" "a").symbols [("X", .id "X")] := by rintro ⟨s, -, hs⟩; exact hs (single_get "X" s)
    have hsub : (nomN "X" "a").substitute ctx0 (n + 1) [("X", .id "X")] (n + 1) = .ok (nomN "X" "a") := by
      simp [Ev.substitute, hno]
    unfold leafSubst
    rw [hsub]
    simp [bind, Except.bind, Ev.symbols, Tr.symbols, nomN]
  have h2 : (nomN "X" "a").solve ctx0 (n + 1) = .ok (.pc (.nom ⟨{"a"}, some true⟩)) := by simp [Ev.solve, optNom, nomN]
  have h3 : nominalValues ctx0 [("a", 1)] (.pc (.nom ⟨{"a"}, some true⟩)) = .ok .empty := by
    unfold nominalValues mkNom
    simp [bind, Except.bind, SSet.and, Piece.and, Nom.and, Nom.neg, nomOrEmpty, mkNom, Nom.has, Nom.WF]
  simp only [Spe.probMem, h0, leafProb, Spe.leafEnv, h1, h2, leafProbSet, h3, bind, Except.bind]

/-- The first child of `mixed`. -/
noncomputable def mixedX : Spe := .sum [leafX "X", .nominal "X" [("a", 1)]] [1/2, 1/2]

theorem mixedX_a (L : Lib) (n : ℕ) : mixedX.probMem ctx0 L (n + 1) [[("X", nomE "X" "a")]] = .ok (1/2) := by
  have h1 : (leafX "X").probMem ctx0 L (n + 1) [[("X", nomE "X" "a")]] = .ok 0 := leafX_str L n "a" none
  have h2 : (Spe.nominal "X" [("a", 1)]).probMem ctx0 L (n + 1) [[("X", nomE "X" "a")]] = .ok 1 := by
    have := nominal_mem (n := n) (Y := "X") (x := "a") (dist := [("a", 1)]) (p := 1) (by simp) (by simp) L
    simpa [strEv, nomE] using this
  unfold mixedX
  rw [Spe.probMem]
  simp [Spe.probMemL, callAll, List.mapM_cons, List.mapM_nil, h1, h2, bind, Except.bind, pure, Except.pure, mixSum]

theorem mixedX_na (L : Lib) (n : ℕ) : mixedX.probMem ctx0 L (n + 1) [[("X", nomN "X" "a")]] = .ok 0 := by
  have h1 : (leafX "X").probMem ctx0 L (n + 1) [[("X", nomN "X" "a")]] = .ok 0 := leafX_str L n "a" (some true)
  have h2 := nomN_mem L n
  unfold mixedX
  rw [Spe.probMem]
  simp [Spe.probMemL, callAll, List.mapM_cons, List.mapM_nil, h1, h2, bind, Except.bind, pure, Except.pure, mixSum]

theorem mixedX_cond (L : Lib) (hash : Spe → ℤ) (n : ℕ) : mixedX.condMem ctx0 L hash (n + 1) [[("X", nomE "X" "a")]] = .ok (.nominal "X" [("a", 1)]) := by
  have h1 : (leafX "X").probMem ctx0 L (n + 1) [[("X", nomE "X" "a")]] = .ok 0 := leafX_str L n "a" none
  have h2 : (Spe.nominal "X" [("a", 1)]).probMem ctx0 L (n + 1) [[("X", nomE "X" "a")]] = .ok 1 := by
    have := nominal_mem (n := n) (Y := "X") (x := "a") (dist := [("a", 1)]) (p := 1) (by simp) (by simp) L
    simpa [strEv, nomE] using this
  have h3 : (Spe.nominal "X" [("a", 1)]).condMem ctx0 L hash (n + 1) [[("X", nomE "X" "a")]] = .ok (.nominal "X" [("a", 1)]) := by
    have := nominal_cond (n := n) (Y := "X") (x := "a") (dist := [("a", 1)]) (p := 1) (by simp) (by simp) L hash
    simpa [strEv, nomE, condNominal] using this
  unfold mixedX
  rw [Spe.condMem]
  simp [Spe.probMemL, Spe.condMemL, callAll, List.mapM_cons, List.mapM_nil, h1, h2, h3, bind, Except.bind, pure, Except.pure, condSum]

theorem coin_b (L : Lib) (n : ℕ) : (coin "Y").probMem ctx0 L (n + 1) [[("Y", nomE "Y" "b")]] = .ok (1/2) := by
  have := nominal_mem (n := n) (Y := "Y") (x := "b") (dist := [("a", 1/2), ("b", 1/2)]) (p := 1/2) (by simp) (by decide +kernel) L
  simpa [strEv, nomE, coin] using this

/-- C21 counterexample: `X` is a number or the string `a`, each with probability one half, and `Y` is a coin.  Given `X == 'a' | Y == 'b'`
(of probability 3/4) the event `X == 'a'`, which has probability 1/2 and implies the condition, has probability 2/3, but 1 in the SPE returned by
`condition`: the disjoint union excludes from its second clause all assignments where `X` is a number. -/
theorem C21_mixed_kinds_wrong (L : Lib) (hash : Spe → ℤ) :
    mkProd [mixedX, coin "Y"] = .ok mixed ∧ (∀ ω, (nomE "X" "a").holds ω → overlapE.holds ω) ∧
    mixed.prob ctx0 L 5 overlapE = .ok (3/4) ∧ mixed.prob ctx0 L 5 (nomE "X" "a") = .ok (1/2) ∧
    ∃ s', mixed.condition ctx0 L hash 5 overlapE = .ok s' ∧ s'.prob ctx0 L 5 (nomE "X" "a") = .ok 1 := by
  have hsym : Spe.symbolsL [mixedX, coin "Y"] = [{"X"}, {"Y"}] := rfl
  have hX : lookupChild [{"X"}, {"Y"}] "X" = .ok 0 := by decide
  have hY : lookupChild [{"X"}, {"Y"}] "Y" = .ok 1 := by decide
  have x1 := mixedX_a L 4
  have x2 := mixedX_na L 4
  have x3 := mixedX_cond L hash 4
  have y1 := coin_b L 4
  have f0 : conjProb ctx0 [{"X"}, {"Y"}] (Spe.probMemL ctx0 L 5 [mixedX, coin "Y"]) [[("X", nomE "X" "a")]] = .ok (1/2) := by
    simp [conjProb, conjKeys, conjKey, conjClause, conjClauseLoop, hX, hY, Clause.addAnd, Spe.probMemL, x1, y1, bind, Except.bind, pure, Except.pure,
      List.mapM_cons, List.foldlM]
  have f1 : conjProb ctx0 [{"X"}, {"Y"}] (Spe.probMemL ctx0 L 5 [mixedX, coin "Y"]) [[("Y", nomE "Y" "b")]] = .ok (1/2) := by
    simp [conjProb, conjKeys, conjKey, conjClause, conjClauseLoop, hX, hY, Clause.addAnd, Spe.probMemL, x1, y1, bind, Except.bind, pure, Except.pure,
      List.mapM_cons, List.foldlM]
  have f2 : conjProb ctx0 [{"X"}, {"Y"}] (Spe.probMemL ctx0 L 5 [mixedX, coin "Y"]) [[("X", nomE "X" "a")], [("Y", nomE "Y" "b")]] = .ok (1/4) := by
    simp [conjProb, conjKeys, conjKey, conjClause, conjClauseLoop, hX, hY, Clause.addAnd, Spe.probMemL, x1, y1, bind, Except.bind, pure, Except.pure,
      List.mapM_cons, List.foldlM]
    norm_num
  have f3 : conjProb ctx0 [{"X"}, {"Y"}] (Spe.probMemL ctx0 L 5 [mixedX, coin "Y"]) [[("Y", nomE "Y" "b"), ("X", nomN "X" "a")]] = .ok 0 := by
    simp [conjProb, conjKeys, conjKey, conjClause, conjClauseLoop, hX, hY, Clause.addAnd, Spe.probMemL, x1, x2, y1, bind, Except.bind, pure, Except.pure,
      List.mapM_cons, List.foldlM]
  have g1 : Spe.probMem ctx0 L 5 mixed [[("X", nomE "X" "a")]] = .ok (1/2) := by
    show Spe.probMem ctx0 L 5 (.prod [mixedX, coin "Y"]) _ = _
    rw [Spe.probMem, hsym]; exact inclExcl_one f0
  have g2 : Spe.probMem ctx0 L 5 mixed [[("Y", nomE "Y" "b")]] = .ok (1/2) := by
    show Spe.probMem ctx0 L 5 (.prod [mixedX, coin "Y"]) _ = _
    rw [Spe.probMem, hsym]; exact inclExcl_one f1
  have g3 : Spe.probMem ctx0 L 5 mixed [[("X", nomE "X" "a")], [("Y", nomE "Y" "b")]] = .ok (3/4) := by
    show Spe.probMem ctx0 L 5 (.prod [mixedX, coin "Y"]) _ = _
    rw [Spe.probMem, hsym]
    have := inclExcl_two (f := fun J => conjProb ctx0 [{"X"}, {"Y"}] (Spe.probMemL ctx0 L 5 [mixedX, coin "Y"])
      (pickClauses [[("X", nomE "X" "a")], [("Y", nomE "Y" "b")]] J)) f0 f1 f2 (by norm_num) (by norm_num) (by norm_num) (by norm_num)
    norm_num at this ⊢
    exact this
  have g4 : Spe.probMem ctx0 L 5 (.prod [mixedX, coin "Y"]) [[("X", nomE "X" "a")], [("Y", nomE "Y" "b"), ("X", nomN "X" "a")]] = .ok (1/2) := by
    rw [Spe.probMem, hsym]
    exact inclExcl_two_zero f0 f3 (by norm_num)
  have ovf : dnfFactor1 ctx0 overlapE = .ok [[("X", nomE "X" "a")], [("Y", nomE "Y" "b")]] := by
    simp [overlapE, dnfFactor1, dnfFactor, nomE, factorClause, factorLit, Ev.symbol1, Ev.symbols, Ev.symbolsL, Tr.symbols, selfLookup,
      bind, Except.bind, pure, Except.pure, List.mapM_cons]
  have nl : mixed.isLeaf = false := rfl
  refine ⟨?_, ?_, ?_, ?_, .prod [.nominal "X" [("a", 1)], coin "Y"], ?_, ?_⟩
  · unfold mkProd
    have : areDisjoint (Spe.symbolsL [mixedX, coin "Y"]) = true := by
      rw [areDisjoint_iff]; simp [hsym]
    simp [Spe.prodChildren, mixedX, coin, mixed] at this ⊢
    exact this
  · intro ω h; simp only [overlapE, Ev.holds_or]; exact ⟨_, by simp, h⟩
  · unfold Spe.prob
    rw [if_neg (by simp [nl])]
    simp only [mixed_normal, ovf, bind, Except.bind]
    exact g3
  · unfold Spe.prob
    rw [if_neg (by simp [nl]), show nomE "X" "a" = strEv "X" "a" from rfl]
    simp only [strEv_normal, strEv_factor, bind, Except.bind]
    exact g1
  · unfold Spe.condition
    rw [if_neg (by simp [nl])]
    have fX : dnfFactor1 ctx0 (nomE "X" "a") = .ok [[("X", nomE "X" "a")]] := strEv_factor _ _
    have fY : dnfFactor1 ctx0 (nomE "Y" "b") = .ok [[("Y", nomE "Y" "b")]] := strEv_factor _ _
    have hd : dropNull ctx0 L 5 mixed overlapE = .ok overlapE := by
      simp only [overlapE, dropNull, List.mapM_cons, List.mapM_nil, fX, fY, g1, g2, bind, Except.bind, pure, Except.pure]
      norm_num
      intro h; simp at h
    simp only [mixed_normal, hd, overlap_disjoint 3, mixed_factor, bind, Except.bind]
    show Spe.condMem ctx0 L hash 5 (.prod [mixedX, coin "Y"]) _ = _
    rw [Spe.condMem, g4]
    have hcl : condClause [mixedX, coin "Y"] (Spe.condMemL ctx0 L hash 5 [mixedX, coin "Y"]) [("X", nomE "X" "a")] = .ok [.nominal "X" [("a", 1)], coin "Y"] := by
      simp only [condClause, Spe.condMemL, List.zip_cons_cons, List.zip_nil_left, List.mapM_cons, List.mapM_nil]
      have e1 : List.filter (fun q => decide (q.1 ∈ mixedX.symbols)) [("X", nomE "X" "a")] = [("X", nomE "X" "a")] := by
        simp [mixedX, leafX, Spe.symbols, Spe.symbolsL]
      have e2 : List.filter (fun q => decide (q.1 ∈ (coin "Y").symbols)) [("X", nomE "X" "a")] = [] := by simp [coin, Spe.symbols]
      simp [e1, e2, x3, bind, Except.bind, pure, Except.pure]
    have hp : mkProd [.nominal "X" [("a", 1)], coin "Y"] = .ok (.prod [.nominal "X" [("a", 1)], coin "Y"]) := by
      unfold mkProd
      have : areDisjoint (Spe.symbolsL [.nominal "X" [("a", 1)], coin "Y"]) = true := by
        rw [areDisjoint_iff]; simp [Spe.symbolsL, coin, Spe.symbols]
      simp [Spe.prodChildren, coin] at this ⊢
      exact this
    unfold condProd
    simp only [hsym, List.mapM_cons, List.mapM_nil, f0, f3, bind, Except.bind, pure, Except.pure]
    norm_num [hcl, hp, condMix, bind, Except.bind, pure, Except.pure, List.mapM_cons, List.mapM_nil]
  · unfold Spe.prob
    rw [if_neg (by simp [Spe.isLeaf, Spe.leafEnv]), show nomE "X" "a" = strEv "X" "a" from rfl]
    simp only [strEv_normal, strEv_factor, bind, Except.bind]
    rw [Spe.probMem, show Spe.symbolsL [.nominal "X" [("a", 1)], coin "Y"] = [{"X"}, {"Y"}] from rfl]
    have h2 := nominal_mem (n := 4) (Y := "X") (x := "a") (dist := [("a", 1)]) (p := 1) (by simp) (by simp) L
    refine inclExcl_one ?_
    show conjProb ctx0 [{"X"}, {"Y"}] (Spe.probMemL ctx0 L 5 [.nominal "X" [("a", 1)], coin "Y"]) [[("X", strEv "X" "a")]] = _
    simp [conjProb, conjKeys, conjKey, conjClause, conjClauseLoop, hX, Clause.addAnd, Spe.probMemL, h2, bind, Except.bind, pure, Except.pure,
      List.mapM_cons, List.foldlM]

/-! ### More examples -/

theorem one_wf (c : Ctx) (L : Lib) (μ : Dist → Measure ℝ) (Y x : String) : (Spe.nominal Y [(x, 1)]).WF c L μ :=
  .nominal (by simp) (by simp) (by simp)

theorem simplify_coins (hash : Spe → ℤ) : simplifySum hash (.sum [coin "Y", coin "Y"] [1/4, 3/4]) = .ok (coin "Y") := by
  unfold simplifySum
  have e1 : (coin "Y").isLeaf = true := rfl
  simp [e1, simplifySumLeaf, partitionBlocks, List.zipIdx]
  simp [coin, Spe.hashable]

theorem twoCoins_wf (c : Ctx) (L : Lib) (μ : Dist → Measure ℝ) : (Spe.sum [coin "Y", coin "Y"] [1/4, 3/4]).WF c L μ := by
  refine .sum (S := {"Y"}) ?_ (by simp) (by simp) (by simp; norm_num) (by norm_num) ?_
  · intro s hs; simp at hs; subst hs; exact coin_wf _ _ _ _
  · intro s hs; simp at hs; subst hs; simp [coin, Spe.symbols]

/-- C25 non-vacuity: a mixture of two equal coins is simplified to one coin. -/
example (hash : Spe → ℤ) : (coin "Y").den muU = (Spe.sum [coin "Y", coin "Y"] [1/4, 3/4]).den muU := by
  refine (C25_simplify_partial (c := ctx0) (L := libOf muU) (E := fun _ => []) (hash := hash) (twoCoins_wf _ _ _) (.sum ?_ ?_) ?_ (simplify_coins hash)).1
  · intro s hs; simp at hs; subst hs; exact .nominal
  · intro w hw; simp at hw; rcases hw with rfl | rfl <;> norm_num
  · intro s hs t ht _ _ _
    simp at hs ht; subst hs; subst ht
    have : List.lookup "b" [("a", (1/2 : ℚ)), ("b", 1/2)] = some (1/2) := by decide +kernel
    norm_num [Spe.eqPy, coin] at this ⊢
    exact this

/-- C28 non-vacuity: a mixture inside a mixture. -/
example : ∃ s, mkSum [.sum [coin "Y", coin "Y"] [1/4, 3/4], .nominal "Y" [("a", 1)]] [1/2, 1/2] = .ok s ∧
    s.den muU = mixture [1/2, 1/2] [(Spe.sum [coin "Y", coin "Y"] [1/4, 3/4]).den muU, (Spe.nominal "Y" [("a", 1)]).den muU] := by
  have h : mkSum [.sum [coin "Y", coin "Y"] [1/4, 3/4], .nominal "Y" [("a", 1)]] [1/2, 1/2] =
      .ok (.sum [coin "Y", coin "Y", .nominal "Y" [("a", 1)]] [1/2 * (1/4), 1/2 * (3/4), 1/2]) := by
    unfold mkSum
    have : areIdentical (Spe.symbolsL [coin "Y", coin "Y", .nominal "Y" [("a", 1)]]) = true := by
      rw [areIdentical_iff]; simp [Spe.symbolsL, Spe.symbols, coin]
    norm_num [Spe.sumChildren, Spe.sumWeights, this]
    intro h; simp at h
  refine ⟨_, h, ?_⟩
  refine (C28_sum (c := ctx0) (L := libOf muU) ?_ ?_ h).1
  · intro t ht; simp at ht; rcases ht with rfl | rfl
    · have := twoCoins_wf ctx0 (libOf muU) muU; norm_num at this ⊢; exact this
    · exact one_wf _ _ _ _ _
  · intro w hw; simp at hw; subst hw; norm_num

/-- C28 non-vacuity: a product inside a product. -/
example : ∃ s, mkProd [coins, coin "W"] = .ok s ∧
    s.den muU = indep [(coins.symbols, coins.den muU), ((coin "W").symbols, (coin "W").den muU)] := by
  have h : mkProd [coins, coin "W"] = .ok (.prod [coin "Y", coin "Z", coin "W"]) := by
    unfold mkProd
    have : areDisjoint (Spe.symbolsL [coin "Y", coin "Z", coin "W"]) = true := by
      rw [areDisjoint_iff]; simp [Spe.symbolsL, coin, Spe.symbols]
    simp [Spe.prodChildren, coins, coin] at this ⊢
    exact this
  refine ⟨_, h, (C28_prod (c := ctx0) (L := libOf muU) ?_ h).1⟩
  intro t ht; simp at ht; rcases ht with rfl | rfl
  · exact coins_wf _ _ _
  · exact coin_wf _ _ _ _

/-- `Y == 'a' & Z == 'a'`. -/
def bothEv : Ev := .and [strEv "Y" "a", strEv "Z" "a"]

theorem bothEv_land : (strEv "Y" "a").land ctx0 (strEv "Z" "a") = .ok bothEv := by
  simp [bothEv, strEv, Ev.land, Ev.simplify, Ev.basic?, Ev.conjuncts, bind, Except.bind]

theorem bothEv_made (c : Ctx) : bothEv.Made c := by
  refine .and (by simp) ?_
  intro e he; simp at he; rcases he with rfl | rfl <;> exact strEv_made _ _ _

theorem bothEv_normal (n : ℕ) : dnfNormalize ctx0 n bothEv = .ok (some bothEv) := by
  simp [bothEv, dnfNormalize, Ev.isIdLit, Ev.basic?, strEv, normalizeBody, Ev.toDnf, Ev.toDnfList, Ev.toDnfListL, cross, simplifyEvent, dnfFactor1, dnfFactor,
      factorClause, factorLoop, factorLit, Ev.symbol1, Ev.symbols, Ev.symbolsL, Tr.symbols, selfLookup, Clause.addAnd, 
      solveClause, Ev.solve, optNom, SSet.isEmpty, dedupSols, solConj, Tr.inSet, reduceM, Ev.land, Ev.simplify, Ev.conjuncts,
      bind, Except.bind, pure, Except.pure, List.mapM_cons]

theorem bothEv_factor : dnfFactor1 ctx0 bothEv = .ok [[("Y", strEv "Y" "a"), ("Z", strEv "Z" "a")]] := by
  simp [bothEv, dnfFactor1, dnfFactor, strEv, factorClause, factorLoop, factorLit, Ev.symbol1, Ev.symbols, Ev.symbolsL, Tr.symbols, selfLookup,
      Clause.addAnd, Ev.basic?, bind, Except.bind, pure, Except.pure, List.mapM_cons]

theorem coins_both (L : Lib) (n : ℕ) : coins.prob ctx0 L (n + 1) bothEv = .ok (1/4) := by
  unfold Spe.prob
  rw [if_neg (by simp [coins, Spe.isLeaf, Spe.leafEnv])]
  simp only [bothEv_normal, bothEv_factor, bind, Except.bind]
  unfold coins
  rw [Spe.probMem, show Spe.symbolsL [coin "Y", coin "Z"] = [{"Y"}, {"Z"}] from rfl]
  have hY : lookupChild [{"Y"}, {"Z"}] "Y" = .ok 0 := by decide
  have hZ : lookupChild [{"Y"}, {"Z"}] "Z" = .ok 1 := by decide
  have mY := coins_mem L n "Y"
  have mZ := coins_mem L n "Z"
  refine inclExcl_one ?_
  show conjProb ctx0 [{"Y"}, {"Z"}] (Spe.probMemL ctx0 L (n + 1) [coin "Y", coin "Z"]) [[("Y", strEv "Y" "a"), ("Z", strEv "Z" "a")]] = _
  simp [conjProb, conjKeys, conjKey, conjClause, conjClauseLoop, hY, hZ, Clause.addAnd, Spe.probMemL, mY, mZ, bind, Except.bind, pure, Except.pure,
      List.mapM_cons, List.foldlM]
  norm_num

theorem coins_one (L : Lib) (n : ℕ) : coins.prob ctx0 L (n + 1) (strEv "Y" "a") = .ok (1/2) := by
  unfold Spe.prob
  rw [if_neg (by simp [coins, Spe.isLeaf, Spe.leafEnv])]
  simp only [strEv_normal, strEv_factor, bind, Except.bind]
  unfold coins
  rw [Spe.probMem, show Spe.symbolsL [coin "Y", coin "Z"] = [{"Y"}, {"Z"}] from rfl]
  have hY : lookupChild [{"Y"}, {"Z"}] "Y" = .ok 0 := by decide
  have mY := coins_mem L n "Y"
  refine inclExcl_one ?_
  show conjProb ctx0 [{"Y"}, {"Z"}] (Spe.probMemL ctx0 L (n + 1) [coin "Y", coin "Z"]) [[("Y", strEv "Y" "a")]] = _
  simp [conjProb, conjKeys, conjKey, conjClause, conjClauseLoop, hY, Clause.addAnd, Spe.probMemL, mY, bind, Except.bind, pure, Except.pure,
      List.mapM_cons, List.foldlM]

theorem sure_other (L : Lib) (n : ℕ) : (Spe.prod [sure "Y", coin "Z"]).prob ctx0 L (n + 1) (strEv "Z" "a") = .ok (1/2) := by
  unfold Spe.prob
  rw [if_neg (by simp [Spe.isLeaf, Spe.leafEnv])]
  simp only [strEv_normal, strEv_factor, bind, Except.bind]
  rw [Spe.probMem, show Spe.symbolsL [sure "Y", coin "Z"] = [{"Y"}, {"Z"}] from rfl]
  have hZ : lookupChild [{"Y"}, {"Z"}] "Z" = .ok 1 := by decide
  have mZ := coins_mem L n "Z"
  refine inclExcl_one ?_
  show conjProb ctx0 [{"Y"}, {"Z"}] (Spe.probMemL ctx0 L (n + 1) [sure "Y", coin "Z"]) [[("Z", strEv "Z" "a")]] = _
  simp [conjProb, conjKeys, conjKey, conjClause, conjClauseLoop, hZ, Clause.addAnd, Spe.probMemL, mZ, bind, Except.bind, pure, Except.pure,
      List.mapM_cons, List.foldlM]

theorem coins_asks {e : Ev} (he : e.Made ctx0) (hv : e.symbols ⊆ {"Y", "Z"}) (hr : ∀ ω, e.Regular ω) (hn : e.NomFree ∅) : Asks ctx0 muU coins e :=
  ⟨⟨he, by simpa [coins, coin, Spe.atomSymsL, Spe.atomSyms] using hn⟩,
    by simpa [coins, coin, Spe.symbols, Spe.symbolsL] using hv, Filter.Eventually.of_forall hr⟩

/-- C23 non-vacuity: two coins, the first and then the second. -/
example : coins.condition ctx0 (libOf muU) (fun _ => 0) 7 (strEv "Y" "a") = .ok (.prod [sure "Y", coin "Z"]) ∧ (1/4 : ℝ) = 1/2 * (1/2) := by
  refine ⟨coins_cond (libOf muU) (fun _ => 0) 6, ?_⟩
  refine C23_chain_partial ctx0_correct coins_canCond (coins_cond (libOf muU) (fun _ => 0) 6) (strEv_made _ "Z" "a") (.inr ?_) ?_ ?_
    (coins_asks (bothEv_made _) ?_ ?_ ?_) bothEv_land (coins_one _ 0) (sure_other _ 0) (coins_both _ 0)
  · simp [coins, coin, Spe.atomSyms, Spe.atomSymsL]
  · simp [strEv, Ev.symbols, Tr.symbols, coins, coin, Spe.symbols, Spe.symbolsL]
  · exact Filter.Eventually.of_forall (fun ω => by simp [strEv, Ev.Regular, Tr.Regular])
  · simp [bothEv, strEv, Ev.symbols, Ev.symbolsL, Tr.symbols]
  · intro ω; simp [bothEv, strEv, Ev.Regular, Ev.RegularL, Tr.Regular]
  · simp [bothEv, strEv, Ev.NomFree, Ev.NomFreeL]

end Sppl
