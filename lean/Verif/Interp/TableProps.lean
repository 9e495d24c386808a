import Verif.Interp.Example
import Verif.Spe.CacheProps
import Verif.Serial.Props

set_option linter.all false

/-!
# C25, C29, C36, C37: distributions given by a table

The distributions `discrete`, `uniformd` and `rv_discrete` (distributions.py 692-714) are all `scipy.stats.rv_discrete` objects of the name `Distribution`,
without arguments.  `RealLeaf.__eq__` (spe.py 828-836) looks at the name and the arguments only.
-/

namespace Sppl
open Classical MeasureTheory
open scoped ENNReal ProbabilityTheory

/-- `discrete({1: p, 2: 1 - p})`. -/
noncomputable def tab (p : ℝ) : Dist := ⟨"Distribution", [], [], [(1, p), (2, 1 - p)]⟩

/-- `Range(1, 2)`. -/
noncomputable def rangeT : Ivl EReal := ⟨((1 : ℝ) : EReal), ((2 : ℝ) : EReal), false, false⟩

/-- `X >> discrete({1: p, 2: 1 - p})`. -/
noncomputable def leafT (p : ℝ) : Spe := .real .disc "X" (tab p) rangeT false [("X", .id "X")]

/-- The distribution of a table. -/
noncomputable def tableLaw (l : List (ℝ × ℝ)) : Measure ℝ := (l.map (fun q => ENNReal.ofReal q.2 • Measure.dirac q.1)).sum

/-- The assignments with `X = 1`. -/
def isOne : Set Asg := {ω | ω "X" = some (.num 1)}

theorem measurable_isOne : MeasurableSet isOne := by
  have h1 : Measurable (fun ω : Asg => ω "X") := measurable_pi_apply "X"
  have := h1 (measurableSet_nums (measurableSet_singleton (1 : ℝ)))
  simpa [Set.preimage, isOne] using this

variable {μ : Dist → Measure ℝ}

theorem tab_law (hμ : ∀ d, d.name = "Distribution" → μ d = tableLaw d.values) (p : ℝ) : μ (tab p) = ENNReal.ofReal p • Measure.dirac 1 + ENNReal.ofReal (1 - p) • Measure.dirac 2 := by
  rw [hμ _ rfl]; simp [tab, tableLaw]

theorem tab_one (hμ : ∀ d, d.name = "Distribution" → μ d = tableLaw d.values) (p : ℝ) : (μ (tab p)).map (fun x => baseAsg "X" (.num x)) isOne = ENNReal.ofReal p := by
  rw [Measure.map_apply (measurable_baseAsg "X") measurable_isOne, tab_law hμ]
  have : (fun x : ℝ => baseAsg "X" (.num x)) ⁻¹' isOne = {1} := by
    ext x; simp [isOne, baseAsg]
  rw [this]
  simp

theorem leafT_one (hμ : ∀ d, d.name = "Distribution" → μ d = tableLaw d.values) (p : ℝ) : (leafT p).den μ isOne = ENNReal.ofReal p := by
  rw [← tab_one hμ p]
  simp only [leafT, Spe.den, extend_single, realMeas, Bool.false_eq_true, if_false]

/-- The leaves of two tables are equal, whatever the probabilities. -/
theorem leafT_eq (p q : ℝ) : Spe.eqPy (leafT p) (leafT q) = true := by simp [leafT, tab, Spe.eqPy, Dist.key]

/-- C25 counterexample: a mixture of two tables becomes the first one (`hash` looks at the same attributes as `==`, spe.py 830-836). -/
theorem C25_table_wrong (hash : Spe → ℤ) (hh : ∀ p q, hash (leafT p) = hash (leafT q)) (hμ : ∀ d, d.name = "Distribution" → μ d = tableLaw d.values) :
    mkSum [leafT (1/2), leafT (1/10)] [1/2, 1/2] = .ok (.sum [leafT (1/2), leafT (1/10)] [1/2, 1/2]) ∧
    simplifySum hash (.sum [leafT (1/2), leafT (1/10)] [1/2, 1/2]) = .ok (leafT (1/2)) ∧
    (leafT (1/2)).den μ isOne = ENNReal.ofReal (1/2) ∧ (Spe.sum [leafT (1/2), leafT (1/10)] [1/2, 1/2]).den μ isOne = ENNReal.ofReal (3/10) := by
  refine ⟨?_, ?_, leafT_one hμ _, ?_⟩
  · unfold mkSum
    have : areIdentical (Spe.symbolsL [leafT (1/2), leafT (1/10)]) = true := by
      rw [areIdentical_iff]; simp [Spe.symbolsL, Spe.symbols, leafT]
    have e1 (p) : (leafT p).sumChildren = [leafT p] := rfl
    have e3 (k w) : (leafT k).sumWeights w = [w] := rfl
    norm_num [this, e1, e3]
    intro h; simp at h
  · unfold simplifySum
    have : hash (leafT (1/2)) = hash (leafT (1/10)) := hh _ _
    have e1 (p) : (leafT p).isLeaf = true := rfl
    simp only [e1, if_true]
    simp [e1, simplifySumLeaf, partitionBlocks, this, List.zipIdx, hh (2⁻¹) (10⁻¹)]
    simp [leafT, Spe.hashable, Tr.hashable]
  · have h := leafT_one hμ
    simp only [Spe.den, Spe.denL, mixture, List.zipWith_cons_cons, List.zipWith_nil_left, List.sum_cons, List.sum_nil, add_zero, Measure.add_apply, Measure.smul_apply, smul_eq_mul, h]
    rw [← ENNReal.ofReal_mul (by norm_num), ← ENNReal.ofReal_mul (by norm_num), ← ENNReal.ofReal_add (by norm_num) (by norm_num)]
    norm_num

/-- C37 counterexample: of two tables in an SPE the second is replaced by the first. -/
theorem C37_table_wrong {hash : Spe → ℤ} (hh : HashOK hash) (h2 : ∀ p q, hash (leafT p) = hash (leafT q)) (hμ : ∀ d, d.name = "Distribution" → μ d = tableLaw d.values) :
    (∃ m, (Spe.sum [leafT (1/2), leafT (1/10)] [1/2, 1/2]).cache hash [] = .ok (.sum [leafT (1/2), leafT (1/2)] [1/2, 1/2], m)) ∧
    (Spe.sum [leafT (1/2), leafT (1/2)] [1/2, 1/2]).den μ isOne = ENNReal.ofReal (1/2) ∧
    (Spe.sum [leafT (1/2), leafT (1/10)] [1/2, 1/2]).den μ isOne = ENNReal.ofReal (3/10) := by
  refine ⟨?_, ?_, (C25_table_wrong hash h2 hμ).2.2.2⟩
  · have hs := h2 (1/10) (1/2)
    have h4 : (leafT (1/2)).cache hash [] = .ok (leafT (1/2), [(hash (leafT (1/2)), leafT (1/2))]) := by simp [leafT, Spe.hashable, Tr.hashable, Spe.cache, cacheLeaf, Cache.find]
    have h5 : (leafT (1/10)).cache hash [(hash (leafT (1/2)), leafT (1/2))] = .ok (leafT (1/2), [(hash (leafT (1/2)), leafT (1/2))]) := by
      have : Cache.find hash [(hash (leafT (1/2)), leafT (1/2))] (leafT (1/10)) = some (leafT (1/2)) := by
        simp only [Cache.find, List.find?_cons, hs, leafT_eq, decide_true, Bool.and_true, Option.map_some]
      generalize h7 : (leafT (1/2)) = t at this ⊢
      unfold leafT at this ⊢
      rw [Spe.cache, cacheLeaf, if_neg (by simp [Spe.hashable, Tr.hashable]), this]
    have h6 : hash (.sum [leafT (1/2), leafT (1/2)] [1/2, 1/2]) = hash (.sum [leafT (1/2), leafT (1/10)] [1/2, 1/2]) := hh.sum (by simp only [List.map_cons, List.map_nil, hs])
    have hd : (Spe.sum [leafT (1/2), leafT (1/10)] [1/2, 1/2]).hashable = true := by simp [Spe.hashable, Spe.hashableL, leafT, Tr.hashable]
    simp only [Spe.cache, hd, not_true_eq_false, if_false, Cache.find, List.find?_nil, Option.map_none, Spe.cacheL, h4, h5, bind, Except.bind]
    rw [if_pos h6]
    exact ⟨_, rfl⟩
  · have h := leafT_one hμ
    simp only [Spe.den, Spe.denL, mixture, List.zipWith_cons_cons, List.zipWith_nil_left, List.sum_cons, List.sum_nil, add_zero, Measure.add_apply, Measure.smul_apply, smul_eq_mul, h]
    rw [← ENNReal.ofReal_mul (by norm_num), ← ENNReal.ofReal_add (by norm_num) (by norm_num)]
    norm_num

/-- C36 counterexample: the dictionaries of two tables are the same, and are not read. -/
theorem C36_table_wrong (c : Ctx) (L : Lib) (H : Host) (hH : H.stats "Distribution" = false) (p q : ℝ) (n : ℕ) :
    (leafT p).toDict c H = (leafT q).toDict c H ∧ fromDict c L H n ((leafT p).toDict c H) = .error .attribute := by
  refine ⟨by simp only [leafT, tab, Spe.toDict, distToDict], ?_⟩
  have hd : distFromDict H (distToDict (tab p)) = .error .attribute := by
    simp only [distFromDict, distToDict, Js.toObj, ok_bind, Jso.get, jso_list]
    simp [List.lookup, tab, Js.toStr, hH]
  have hm : realFromDict c L H n .disc (jso [("class", .str "DiscreteLeaf"), ("symbol", .str "X"), ("dist", distToDict (tab p)),
      ("support", .src (rangeT.repr H)), ("conditioned", .bool false), ("env", envToDict c H [("X", .id "X")])]) = .error .attribute := by
    unfold realFromDict
    simp only [Jso.get, jso_list]
    simp only [List.lookup]
    simp [Js.toStr, hd, bind, Except.bind]
  rw [leafT, Spe.toDict, fromDict]
  simp only [Kind.className]
  rw [show Jso.get (jso [("class", .str "DiscreteLeaf"), ("symbol", .str "X"), ("dist", distToDict (tab p)),
      ("support", .src (rangeT.repr H)), ("conditioned", .bool false), ("env", envToDict c H [("X", .id "X")])]) "class" = .ok (.str "DiscreteLeaf") by
        simp [Jso.get, List.lookup]]
  simp only [Js.toStr, bind, Except.bind]
  simp [hm]

/-! ## A program -/

/-- `Y >> coin`; `if Y == 'a': X >> discrete({1: 1/2, 2: 1/2})`, `else: X >> discrete({1: 1/10, 2: 9/10})`. -/
noncomputable def progT : Cmd := .seq [.sample "Y" (.one coinD), .ifelse [strEv "Y" "a"] true [.sample "X" (.one (.real .disc (tab (1/2)) rangeT)), .sample "X" (.one (.real .disc (tab (1/10)) rangeT))]]

theorem coin_probs (L : Lib) : (coin "Y").prob ctx0 L 5 (strEv "Y" "a") = .ok (1/2) ∧ (coin "Y").prob ctx0 L 5 (nomN "Y" "a") = .ok (1/2) := by
  obtain ⟨-, -, -, -, -, -, h1, -, -, -, h2⟩ := coin_facts
  exact ⟨h1, h2⟩

theorem leafT_call (L : Lib) (p : ℝ) : (Distr.real .disc (tab p) rangeT).call L "X" = .ok (leafT p) := by
  have h0 (n : ℤ) : isInt (((n : ℝ)) : EReal) = true := by simp [isInt]
  have h1 : intOrNegInf rangeT.a = .ok true := by
    unfold intOrNegInf rangeT
    rw [if_neg (EReal.coe_ne_bot 1), if_neg (EReal.coe_ne_top 1)]
    have := h0 1
    simpa using this
  have h2 : intOrPosInf rangeT.b = .ok true := by
    unfold intOrPosInf rangeT
    rw [if_neg (EReal.coe_ne_top 2), if_neg (EReal.coe_ne_bot 2)]
    have := h0 2
    simpa using this
  simp [Distr.call, mkReal, h1, h2, bind, Except.bind, assertB, leafT]

theorem sure_surely : Spe.eqPy (sure "Y") (surely "Y") = false := by
  simp [sure, surely, Spe.eqPy]

theorem simpT (hash : Spe → ℤ) : simplifySum hash (.sum [.prod [sure "Y", leafT (1/2)], .prod [surely "Y", leafT (1/10)]] [1/2, 1/2]) =
    .ok (.prod [.sum [sure "Y", surely "Y"] [1/2, 1/2], leafT (1/2)]) := by
  have a1 : Spe.eqPy (leafT (1/2)) (surely "Y") = false := rfl
  have a2 : Spe.eqPy (sure "Y") (leafT (1/10)) = false := rfl
  have a3 : overlapPairs [sure "Y", leafT (1/2)] [surely "Y", leafT (1/10)] = [(1, 1)] := by
    simp only [overlapPairs, List.zipIdx, List.flatMap_cons, List.flatMap_nil, List.filterMap_cons, List.filterMap_nil, sure_surely, leafT_eq, a1, a2]
    simp
  have a4 : mkSum [sure "Y", surely "Y"] (pnorm [1/2, 1/2]) = .ok (.sum [sure "Y", surely "Y"] [1/2, 1/2]) := by
    simp [mkSum, Spe.sumChildren, Spe.sumWeights, sure, surely, areIdentical, Spe.symbolsL, Spe.symbols, pnorm]
    norm_num
  have a5 : simplifyStep ([sure "Y", leafT (1/2)], 1/2) [surely "Y", leafT (1/10)] (1/2) = .ok ([.sum [sure "Y", surely "Y"] [1/2, 1/2], leafT (1/2)], 1) := by
    unfold simplifyStep
    simp only [a3, keepIdx, List.zipIdx]
    norm_num [listToProd]
    rw [a4]
    rfl
  have a6 : mkProd [.sum [sure "Y", surely "Y"] [1/2, 1/2], leafT (1/2)] = .ok (.prod [.sum [sure "Y", surely "Y"] [1/2, 1/2], leafT (1/2)]) := by
    simp [mkProd, Spe.prodChildren, leafT, sure, surely, areDisjoint, Spe.symbolsL, Spe.symbols]
  have a7 : simplifySum hash (.sum [.prod [sure "Y", leafT (1/2)], .prod [surely "Y", leafT (1/10)]] [1/2, 1/2]) =
      simplifySumProduct [.prod [sure "Y", leafT (1/2)], .prod [surely "Y", leafT (1/10)]] [1/2, 1/2] := by
    simp [simplifySum, Spe.isLeaf, Spe.leafEnv]
  rw [a7]
  simp only [simplifySumProduct, List.mapM_cons, List.mapM_nil, Spe.prod?, bind, Option.bind, pure, simplifyProducts, List.zip_cons_cons, List.zip_nil_left, List.foldlM_cons, List.foldlM_nil, a5,
    Except.bind, Except.pure, if_true, listToProd, a6]

/-- The settings of the library. -/
noncomputable def optsT (L : Lib) (hash : Spe → ℤ) : Opts := ⟨ctx0, L, hash, 5, simplifySum hash⟩

theorem progT_run (L : Lib) (hash : Spe → ℤ) : progT.interp (optsT L hash) none = .ok (some (.prod [.sum [sure "Y", surely "Y"] [1/2, 1/2], leafT (1/2)])) := by
  obtain ⟨-, -, -, -, -, hnot, -⟩ := coin_facts
  obtain ⟨h1, h2⟩ := coin_probs L
  have c1 : (coin "Y").condition ctx0 L hash 5 (strEv "Y" "a") = .ok (sure "Y") := by
    unfold Spe.condition
    rw [if_pos (show Spe.isLeaf _ = true from rfl)]
    exact coin_cond _ 4 "Y"
  have c2 : (coin "Y").condition ctx0 L hash 5 (nomN "Y" "a") = .ok (surely "Y") := by
    unfold Spe.condition
    rw [if_pos (show Spe.isLeaf _ = true from rfl)]
    exact coin_cond_not _ 4 "Y"
  have n1 : dnfNormalize ctx0 5 (strEv "Y" "a") = .ok (some (strEv "Y" "a")) := by
    simp [dnfNormalize, Ev.isIdLit, Ev.basic?, strEv, Tr.isId]
  have n2 : dnfNormalize ctx0 5 (nomN "Y" "a") = .ok (some (nomN "Y" "a")) := by
    simp [dnfNormalize, Ev.isIdLit, Ev.basic?, nomN, Tr.isId]
  have d1 : coinD.call L "Y" = .ok (coin "Y") := by norm_num [coinD, Distr.call, mkNominal, mkNom, bind, Except.bind, coin]
  have p1 : mkProd [sure "Y", leafT (1/2)] = .ok (.prod [sure "Y", leafT (1/2)]) := by
    simp [mkProd, Spe.prodChildren, leafT, sure, areDisjoint, Spe.symbolsL, Spe.symbols]
  have p2 : mkProd [surely "Y", leafT (1/10)] = .ok (.prod [surely "Y", leafT (1/10)]) := by
    simp [mkProd, Spe.prodChildren, surely, leafT, areDisjoint, Spe.symbolsL, Spe.symbols]
  have s1 : mkSum [.prod [sure "Y", leafT (1/2)], .prod [surely "Y", leafT (1/10)]] [1/2, 1/2] =
      .ok (.sum [.prod [sure "Y", leafT (1/2)], .prod [surely "Y", leafT (1/10)]] [1/2, 1/2]) := by
    simp [mkSum, Spe.sumChildren, Spe.sumWeights, leafT, sure, surely, areIdentical, Spe.symbolsL, Spe.symbols]
    norm_num
  have i1 : ifEvents ctx0 [strEv "Y" "a"] true = .ok [strEv "Y" "a", nomN "Y" "a"] := by
    simp [ifEvents, branchEvents, branchEvent, hnot, bind, Except.bind, pure, Except.pure]
  have b1 : ifBlock (optsT L hash) (coin "Y") [some (strEv "Y" "a"), some (nomN "Y" "a")]
      [Cmd.interp (optsT L hash) (.sample "X" (.one (.real .disc (tab (1/2)) rangeT))), Cmd.interp (optsT L hash) (.sample "X" (.one (.real .disc (tab (1/10)) rangeT)))] =
        .ok (.prod [.sum [sure "Y", surely "Y"] [1/2, 1/2], leafT (1/2)]) := by
    have o1 : optProb (optsT L hash) (coin "Y") (some (strEv "Y" "a")) = .ok (1/2) := NoPiecewise.keyed_prob (s := coin "Y") (by intro s e h; cases h; simp [strEv, nomN, Ev.hashable, Tr.hashable]) |>.trans h1
    have o2 : optProb (optsT L hash) (coin "Y") (some (nomN "Y" "a")) = .ok (1/2) := NoPiecewise.keyed_prob (s := coin "Y") (by intro s e h; cases h; simp [strEv, nomN, Ev.hashable, Tr.hashable]) |>.trans h2
    have q1 : optCond (optsT L hash) (coin "Y") (some (strEv "Y" "a")) = .ok (sure "Y") := NoPiecewise.keyed_condition (s := coin "Y") (by intro s e h; cases h; simp [strEv, nomN, Ev.hashable, Tr.hashable]) |>.trans c1
    have q2 : optCond (optsT L hash) (coin "Y") (some (nomN "Y" "a")) = .ok (surely "Y") := NoPiecewise.keyed_condition (s := coin "Y") (by intro s e h; cases h; simp [strEv, nomN, Ev.hashable, Tr.hashable]) |>.trans c2
    have r1 : runSome (Cmd.interp (optsT L hash) (.sample "X" (.one (.real .disc (tab (1/2)) rangeT)))) (sure "Y") = .ok (.prod [sure "Y", leafT (1/2)]) := by
      simp only [runSome, Cmd.interp, Source.call, show (optsT L hash).L = L from rfl, leafT_call, p1, bind, Except.bind]
    have r2 : runSome (Cmd.interp (optsT L hash) (.sample "X" (.one (.real .disc (tab (1/10)) rangeT)))) (surely "Y") = .ok (.prod [surely "Y", leafT (1/10)]) := by
      simp only [runSome, Cmd.interp, Source.call, show (optsT L hash).L = L from rfl, leafT_call, p2, bind, Except.bind]
    unfold ifBlock
    rw [if_neg (by simp)]
    simp only [List.mapM_cons, List.mapM_nil, o1, o2, bind, Except.bind, pure, Except.pure, List.zip_cons_cons, List.zip_nil_left, List.filter_cons, List.filter_nil,
      ne_eq, show ¬ ((1 : ℝ)/2 = 0) by norm_num, not_false_eq_true, decide_true, if_true, List.map_cons, List.map_nil, q1, q2, r1, r2, List.sum_cons, List.sum_nil,
      show ((1 : ℝ)/2 + (1/2 + 0) = 1) by norm_num, not_true_eq_false, if_false, reduceCtorEq, mergeBranches, s1]
    exact simpT hash
  have e1 : (Cmd.ifelse [strEv "Y" "a"] true [.sample "X" (.one (.real .disc (tab (1/2)) rangeT)), .sample "X" (.one (.real .disc (tab (1/10)) rangeT))]).interp (optsT L hash) (some (coin "Y")) =
      .ok (some (.prod [.sum [sure "Y", surely "Y"] [1/2, 1/2], leafT (1/2)])) := by
    rw [Cmd.interp]
    simp only [needSpe, show (optsT L hash).c = ctx0 from rfl, show (optsT L hash).n = 5 from rfl, i1, bind, Except.bind, List.mapM_cons, List.mapM_nil, n1, n2, pure, Except.pure,
      Cmd.interpL, b1]
  have e0 : (Cmd.sample "Y" (.one coinD)).interp (optsT L hash) none = .ok (some (coin "Y")) := by
    simp only [Cmd.interp, Source.call, show (optsT L hash).L = L from rfl, d1, bind, Except.bind]
  unfold progT
  rw [Cmd.interp]
  simp only [Cmd.interpL, List.foldlM_cons, List.foldlM_nil, e0, bind, Except.bind, e1, pure, Except.pure]

theorem withIndep_one {m ν : Measure Asg} [SFinite m] [SFinite ν] : withIndep "X" ν m isOne = m Set.univ * ν isOne := by
  rw [withIndep, Measure.map_apply (measurable_addVar "X") measurable_isOne]
  have : addVar "X" ⁻¹' isOne = Set.univ ×ˢ isOne := by
    ext p; simp [isOne, addVar]
  rw [this, Measure.prod_prod]

/-- What the program stands for. -/
theorem progT_sem (hμ : ∀ d, d.name = "Distribution" → μ d = tableLaw d.values) : progT.sem μ start isOne = ENNReal.ofReal (3/10) := by
  have hcoin : coinD.WF (libOf μ) μ := .nominal (by simp) (by simp)
  have d1 : (Source.one coinD).call (libOf μ) "Y" = .ok (coin "Y") := by norm_num [Source.call, coinD, Distr.call, mkNominal, mkNom, bind, Except.bind, coin]
  have hrun : Rep ctx0 (libOf μ) μ (withIndep "Y" ((Source.one coinD).law μ "Y") start) (coin "Y") :=
    sample_ok (o := ⟨ctx0, libOf μ, fun _ => 0, 5, .ok⟩) (X := "Y") (μ := μ) (.one hcoin) start none (some (coin "Y")) rfl (by
      simp only [Cmd.interp, d1, bind, Except.bind])
  have hm := hrun.den
  generalize hmm : withIndep "Y" ((Source.one coinD).law μ "Y") start = m at hm
  have hY : MeasurableSet {ω : Asg | (strEv "Y" "a").holds ω} := Ev.measurable_set _
  have hpr : IsProbabilityMeasure m := by rw [← hm]; exact hrun.wf.prob
  have k1 : m {ω : Asg | (strEv "Y" "a").holds ω} = ENNReal.ofReal (1/2) := by
    rw [← hm]
    simp [coin, Spe.den, mixture, Measure.dirac_apply' _ hY, Set.indicator, strEv, Ev.holds, Ev.holdsB, Tr.eval, baseAsg]
  have k2 : m (Set.univ \ {ω : Asg | (strEv "Y" "a").holds ω}) = ENNReal.ofReal (1/2) := by
    rw [← hm]
    simp [coin, Spe.den, mixture, Measure.dirac_apply' _ (MeasurableSet.univ.diff hY), Set.indicator, strEv, Ev.holds, Ev.holdsB, Tr.eval, baseAsg]
  have hf (p) (hp : 0 ≤ p) : SFinite (μ (tab p)) := by rw [tab_law hμ]; infer_instance
  have k3 (E : Set Asg) (h : m E = ENNReal.ofReal (1/2)) (p : ℝ) (hp : 0 ≤ p) :
      m E * withIndep "X" ((μ (tab p)).map (fun x => baseAsg "X" (.num x))) (m[|E]) isOne = ENNReal.ofReal (1/2 * p) := by
    have := hf p hp
    have : IsProbabilityMeasure (m[|E]) := ProbabilityTheory.cond_isProbabilityMeasure (by rw [h]; simp)
    rw [withIndep_one, measure_univ, one_mul, tab_one hμ, h, ENNReal.ofReal_mul (by norm_num)]
  unfold progT
  simp only [Cmd.sem, Cmd.semL, List.foldl_cons, List.foldl_nil, hmm, condSets, firsts, branches, List.map_cons, List.map_nil, List.cons_append, List.nil_append, if_true,
    List.zipWith_cons_cons, List.zipWith_nil_left, List.sum_cons, List.sum_nil, add_zero, Measure.add_apply, Measure.smul_apply, smul_eq_mul]
  have l1 (p : ℝ) : Source.law μ "X" (.one (.real .disc (tab p) rangeT)) = (μ (tab p)).map (fun x => baseAsg "X" (.num x)) := rfl
  simp only [l1]
  rw [show ({ω : Asg | (strEv "Y" "a").holds ω} \ ∅ : Set Asg) = {ω : Asg | (strEv "Y" "a").holds ω} by simp,
    show (Set.univ \ (∅ ∪ {ω : Asg | (strEv "Y" "a").holds ω}) : Set Asg) = Set.univ \ {ω : Asg | (strEv "Y" "a").holds ω} by simp]
  rw [k3 _ k1 _ (by norm_num), k3 _ k2 _ (by norm_num), ← ENNReal.ofReal_add (by norm_num) (by norm_num)]
  norm_num

/-- C29, C30 counterexample: run with the simplification of the library, the program that draws `X` from one table or another makes `X` independent of the
condition, with the first table. -/
theorem C29_table_wrong (L : Lib) (hash : Spe → ℤ) (hμ : ∀ d, d.name = "Distribution" → μ d = tableLaw d.values) :
    ∃ s, progT.interp (optsT L hash) none = .ok (some s) ∧ s.den μ isOne = ENNReal.ofReal (1/2) ∧ progT.sem μ start isOne = ENNReal.ofReal (3/10) := by
  refine ⟨_, progT_run L hash, ?_, progT_sem hμ⟩
  rw [den_prod]
  have hT : IsProbabilityMeasure ((leafT (1/2)).den μ) := by
    have : IsProbabilityMeasure (μ (tab (1/2))) := by
      rw [tab_law hμ]
      constructor
      simp only [Measure.add_apply, Measure.smul_apply, measure_univ, smul_eq_mul, mul_one]
      rw [← ENNReal.ofReal_add (by norm_num) (by norm_num)]
      norm_num
    simp only [leafT, Spe.den, realMeas, Bool.false_eq_true, if_false]
    exact Measure.isProbabilityMeasure_map (measurable_leafAsg "X" _).aemeasurable
  have hS : IsProbabilityMeasure ((Spe.sum [sure "Y", surely "Y"] [1/2, 1/2]).den μ) := by
    constructor
    simp only [Spe.den, Spe.denL, sure, surely, mixture, List.zipWith_cons_cons, List.zipWith_nil_left, List.zipWith_nil_right, List.sum_cons, List.sum_nil, add_zero, Measure.add_apply, Measure.smul_apply,
      smul_eq_mul, List.map_cons, List.map_nil, measure_univ, mul_one]
    norm_num
    rw [← ENNReal.ofReal_add (by norm_num) (by norm_num)]
    norm_num
  have hpr : IsProbabilityMeasure (indep [((leafT (1/2)).symbols, (leafT (1/2)).den μ)]) := indep_prob (by intro q hq; rw [List.mem_singleton.1 hq]; exact hT)
  have hnil : IsProbabilityMeasure (indep []) := indep_prob (by simp)
  rw [← leafT_one hμ (1/2)]
  simp only [groups, List.map_cons, List.map_nil]
  rw [indep_cons, Measure.map_apply (measurable_mergeAsg _) measurable_isOne]
  have e1 : mergeAsg (Spe.sum [sure "Y", surely "Y"] [1/2, 1/2]).symbols ⁻¹' isOne = Set.univ ×ˢ isOne := by
    ext p; simp [isOne, mergeAsg, Spe.symbols, Spe.symbolsL, sure, surely]
  rw [e1, Measure.prod_prod, measure_univ, one_mul, indep_cons, Measure.map_apply (measurable_mergeAsg _) measurable_isOne]
  have e2 : mergeAsg (leafT (1/2)).symbols ⁻¹' isOne = isOne ×ˢ Set.univ := by
    ext p; simp [isOne, mergeAsg, Spe.symbols, leafT]
  rw [e2, Measure.prod_prod, measure_univ, mul_one]

/-- Such libraries exist. -/
example : ∀ d : Dist, d.name = "Distribution" → (fun d : Dist => tableLaw d.values) d = tableLaw d.values := fun _ _ => rfl

end Sppl
