import Verif.Comp.Props
import Verif.Interp.Example

set_option linter.all false

/-!
# C40, C46: programs that meet the hypotheses, and where the compiler is wrong
-/

namespace Sppl
open Classical MeasureTheory
open scoped ENNReal ProbabilityTheory

/-- The distributions of the examples. -/
noncomputable def pyHost0 : PyHost where
  call f _ := if f = "coin" then .ok (.dist (.one coinD)) else if f = "uniform" then .ok (.dist (.one (.real .cont d0 unitIvl))) else
    if f = "zed" then .ok (.dist (.one (.nominal [("z", 1)]))) else .error .key
  bin _ _ _ := .error .type
  un _ _ := .error .type
  cmp _ _ _ := .error .type

/-- Nothing is defined. -/
def ns0 : NS := fun _ => none

/-- `X` is a variable. -/
def nsX : NS := ns0.bind "X" (.tr (.id "X"))

/-- `X > 0`. -/
noncomputable def posX : PE := .cmp (.name "X") [.gt] [.lit (.num 0)]

/-- `X < 1`. -/
noncomputable def ltX : PE := .cmp (.name "X") [.lt] [.lit (.num 1)]

theorem eval_X : (PE.name "X").eval pyHost0 ctx0 nsX = .ok (.tr (.id "X")) := by simp [PE.eval, nsX, NS.bind]

theorem posX_eval : ∃ e, posX.eval pyHost0 ctx0 nsX = .ok (.ev e) ∧ ∀ ω, e.holds ω ↔ ∃ y : ℝ, (Tr.id "X").eval ω = some (.num y) ∧ y > 0 := by
  obtain ⟨-, -, -, e, h, k⟩ := C11_compare (.id "X") 0
  refine ⟨e, ?_, k⟩
  simp [posX, PE.eval, nsX, NS.bind, PE.evalChain, evalCmp, CmpOp.isOrder, Obj.num?, cmpOrder, cmpTr, bind, Except.bind]
  simp at h
  rw [h]

theorem ltX_eval : ∃ e, ltX.eval pyHost0 ctx0 nsX = .ok (.ev e) ∧ ∀ ω, e.holds ω ↔ ∃ y : ℝ, (Tr.id "X").eval ω = some (.num y) ∧ y < 1 := by
  obtain ⟨-, ⟨e, h, k⟩, -, -⟩ := C11_compare (.id "X") 1
  refine ⟨e, ?_, k⟩
  simp [ltX, PE.eval, nsX, NS.bind, PE.evalChain, evalCmp, CmpOp.isOrder, Obj.num?, cmpOrder, cmpTr, bind, Except.bind]
  simp at h
  rw [h]

/-- `X` is -1. -/
noncomputable def minusOne : Asg := baseAsg "X" (.num (-1))

/-- C40: `and` of two tests is the second test alone: events are true in Python.  With `X > 0 and X < 1`, the event holds where `X` is -1. -/
theorem C40_and_wrong : ∃ e, (PE.boolOp true [posX, ltX]).rewrite.eval pyHost0 ctx0 nsX = .ok (.ev e) ∧ e.holds minusOne ∧
    ¬ (PE.boolOp true [posX, ltX]).Means pyHost0 ctx0 nsX minusOne := by
  obtain ⟨e1, h1, k1⟩ := posX_eval
  obtain ⟨e2, h2, k2⟩ := ltX_eval
  refine ⟨e2, ?_, ?_, ?_⟩
  · have : (PE.boolOp true [posX, ltX]).rewrite = PE.boolOp true [posX, ltX] := by
      simp [PE.rewrite, PE.rewriteL, posX, ltX, rewriteCmp]
    rw [this]
    simp [PE.eval, PE.evalBool, h1, h2, bind, Except.bind, Obj.truthy]
  · rw [k2]; exact ⟨-1, by simp [Tr.eval, minusOne, baseAsg], by norm_num⟩
  · simp only [PE.Means, PE.MeansAll, and_true]
    rintro ⟨h, -⟩
    rw [posX, means_cmp eval_X (by simp [PE.eval]; rfl)] at h
    obtain ⟨x, y, h3, h4, h5⟩ := h
    simp [Obj.at, Tr.eval, minusOne, baseAsg] at h3 h4
    subst h3 h4
    norm_num at h5

/-- C40: `or` of two tests is the first test alone. -/
theorem C40_or_wrong : ∃ e, (PE.boolOp false [posX, ltX]).rewrite.eval pyHost0 ctx0 nsX = .ok (.ev e) ∧ ¬ e.holds minusOne ∧
    (PE.boolOp false [posX, ltX]).Means pyHost0 ctx0 nsX minusOne := by
  obtain ⟨e1, h1, k1⟩ := posX_eval
  obtain ⟨e2, h2, k2⟩ := ltX_eval
  refine ⟨e1, ?_, ?_, ?_⟩
  · have : (PE.boolOp false [posX, ltX]).rewrite = PE.boolOp false [posX, ltX] := by
      simp [PE.rewrite, PE.rewriteL, posX, ltX, rewriteCmp]
    rw [this]
    simp [PE.eval, PE.evalBool, h1, h2, bind, Except.bind, Obj.truthy]
  · rw [k1]; rintro ⟨y, h1, h2⟩; simp [Tr.eval, minusOne, baseAsg] at h1; subst h1; norm_num at h2
  · simp only [PE.Means, PE.MeansAny, or_false]
    right
    rw [ltX, means_cmp eval_X (by simp [PE.eval]; rfl)]
    exact ⟨-1, 1, by simp [Obj.at, Tr.eval, minusOne, baseAsg], by simp [Obj.at], by norm_num⟩

/-- C40: `not` of a test is `False`. -/
theorem C40_not_wrong : (PE.un .not ltX).rewrite.eval pyHost0 ctx0 nsX = .ok (.bool false) := by
  obtain ⟨e2, h2, k2⟩ := ltX_eval
  have : (PE.un .not ltX).rewrite = PE.un .not ltX := by simp [PE.rewrite, ltX, rewriteCmp]
  rw [this]
  simp [PE.eval, h2, bind, Except.bind, evalUn, Obj.truthy]

/-- C40: `0 < X < 1` is `X < 1`. -/
theorem C40_chain_wrong : ∃ e, (PE.cmp (.lit (.num 0)) [.lt, .lt] [.name "X", .lit (.num 1)]).rewrite.eval pyHost0 ctx0 nsX = .ok (.ev e) ∧ e.holds minusOne ∧
    ¬ (PE.cmp (.lit (.num 0)) [.lt, .lt] [.name "X", .lit (.num 1)]).Means pyHost0 ctx0 nsX minusOne := by
  obtain ⟨-, -, -, e1, h1, k1⟩ := C11_compare (.id "X") 0
  obtain ⟨e2, h2, k2⟩ := ltX_eval
  refine ⟨e2, ?_, ?_, ?_⟩
  · simp only [PE.rewrite, rewriteCmp]
    have hb : evalCmp pyHost0 .lt (.num 0) (.tr (.id "X")) = .ok (.ev e1) := by
      simp [evalCmp, CmpOp.isOrder, Obj.num?, cmpOrder, cmpTr, CmpOp.flip, bind, Except.bind]
      simp at h1
      rw [h1]
    have hl : evalCmp pyHost0 .lt (.tr (.id "X")) (.num 1) = .ok (.ev e2) := by
      simpa [ltX, PE.eval, nsX, NS.bind, PE.evalChain, bind, Except.bind] using h2
    simp [PE.eval, PE.evalChain, nsX, NS.bind, hb, hl, bind, Except.bind, Obj.truthy]
  · rw [k2]; exact ⟨-1, by simp [Tr.eval, minusOne, baseAsg], by norm_num⟩
  · simp only [PE.Means]
    rintro ⟨v, vs, h3, h4, h5⟩
    simp [PE.eval, PE.evalL, nsX, NS.bind, bind, Except.bind] at h3 h4
    subst h3 h4
    obtain ⟨⟨x, y, h6, h7, h8⟩, -⟩ := h5
    simp [Obj.at, Tr.eval, minusOne, baseAsg] at h6 h7
    subst h6 h7
    norm_num at h8

/-- C40 non-vacuity: a test that is covered, `(X > 0) & (X < 1)`. -/
example : (PE.bin .bitAnd posX ltX).Plain pyHost0 ctx0 nsX ∧ ∀ ω, (PE.bin .bitAnd posX ltX).TypedAt pyHost0 ctx0 nsX ω :=
  ⟨.and (.left eval_X (by simp [PE.eval])) (.left eval_X (by simp [PE.eval])), fun ω => .and (.cmp (by simp)) (.cmp (by simp))⟩

/-- C40 non-vacuity: `if`, two `elif`, `else`. -/
example : unrollIf posX [.pass] [.ifs ltX [.condition posX] [.ifs posX [] [.pass, .pass]]] =
    [(posX, [.pass]), (ltX, [.condition posX]), (posX, []), (PE.yes, [.pass, .pass])] := by simp [unrollIf]

/-! ## A program -/

/-- `Y ~= coin()`; `if Y == 'a': X ~= uniform()`, `else: X ~= zed()`. -/
def source0 : List Stmt :=
  [.assign (.name "Y") (.call "coin" []),
    .ifs (.cmp (.name "Y") [.eq] [.lit (.str "a")]) [.assign (.name "X") (.call "uniform" [])] [.assign (.name "X") (.call "zed" [])]]

/-- What `source0` is compiled to. -/
def compiled0 : Prog := ⟨[], ["Y", "X"], [], [.seq [.sample (.name "Y") (.call "coin" []),
  .ifelse [.test (.bin .lshift (.name "Y") (.set [.lit (.str "a")])), .sample (.name "X") (.call "uniform" []), .test PE.yes, .sample (.name "X") (.call "zed" [])]]]⟩

/-- The assignment of a distribution. -/
theorem visit_dist {D : List String} {n : ℕ} {ctx : List String} {target : Target} {f : String} {st st' : VS} (hf : f ∈ D) (hf' : f ≠ "array")
    (hd : declare ctx target { st with distributions := st.distributions ++ [f] } = .ok st') :
    visit D (n + 1) ctx (.assign target (.call f [])) st = .ok ([.sample target.expr (.call f [])], st') := by
  simp only [visit, visitAssign, PE.names, PE.namesL]
  split
  · rename_i h; injection h with h; exact absurd h hf'
  · simp [hf, visitRandom, hd, bind, Except.bind, PE.rewrite, PE.rewriteL]

theorem source0_compile : compile ["coin", "uniform", "zed"] 5 source0 = .ok compiled0 := by
  have h1 : visit ["coin", "uniform", "zed"] 5 ["global"] (.assign (.name "Y") (.call "coin" [])) ⟨false, [], [], []⟩ =
      .ok ([.sample (.name "Y") (.call "coin" [])], ⟨false, [], [("Y", .scalar)], ["coin"]⟩) := visit_dist (by simp) (by simp) (by simp [declare])
  have h2 : visit ["coin", "uniform", "zed"] 4 ["global", "if"] (.assign (.name "X") (.call "uniform" [])) ⟨false, [], [("Y", .scalar)], ["coin"]⟩ =
      .ok ([.sample (.name "X") (.call "uniform" [])], ⟨false, [], [("Y", .scalar), ("X", .scalar)], ["coin", "uniform"]⟩) :=
    visit_dist (by simp) (by simp) (by simp [declare, List.lookup])
  have h3 : visit ["coin", "uniform", "zed"] 4 ["global", "if", "elif"] (.assign (.name "X") (.call "zed" [])) ⟨false, [], [("Y", .scalar), ("X", .scalar)], ["coin", "uniform"]⟩ =
      .ok ([.sample (.name "X") (.call "zed" [])], ⟨false, [], [("Y", .scalar), ("X", .scalar)], ["coin", "uniform", "zed"]⟩) :=
    visit_dist (by simp) (by simp) (by simp [declare, List.lookup])
  have h4 : visit ["coin", "uniform", "zed"] 5 ["global"] (.ifs (.cmp (.name "Y") [.eq] [.lit (.str "a")]) [.assign (.name "X") (.call "uniform" [])] [.assign (.name "X") (.call "zed" [])])
      ⟨false, [], [("Y", .scalar)], ["coin"]⟩ =
      .ok ([.ifelse [.test (.bin .lshift (.name "Y") (.set [.lit (.str "a")])), .sample (.name "X") (.call "uniform" []), .test PE.yes, .sample (.name "X") (.call "zed" [])]],
        ⟨false, [], [("Y", .scalar), ("X", .scalar)], ["coin", "uniform", "zed"]⟩) := by
    rw [visit]
    simp only [unrollIf, visitBranches, visitModule, visitItems, List.cons_append, List.nil_append, if_true, h2, bind, Except.bind, Bool.false_eq_true, if_false, h3]
    simp [sequenceBlock, PE.rewrite, rewriteCmp, PE.yes]
  simp only [compile, source0, visitModule, visitItems, h1, h4, bind, Except.bind]
  simp [sequenceBlock, VS.varNames, VS.arrays, compiled0]

/-- The names in the compiled module. -/
def ns1 : NS := (ns0.bind "Y" (.tr (.id "Y"))).bind "X" (.tr (.id "X"))

theorem compiled0_names : compiled0.names pyHost0 ctx0 ns0 = .ok ns1 := by
  simp [Prog.names, compiled0, runConstants, runVariables, runArrays, bind, Except.bind, ns1]

theorem ns1_canonical : ns1.Canonical := C46_names (p := compiled0) (ρ₀ := ns0) (by intro x o h; cases h) (by simp [compiled0]) compiled0_names

theorem compiled0_run : compiled0.run pyHost0 ctx0 ns0 = .ok prog0 := by
  have hstr : (Tr.id "Y").inList [.str "a"] = strEv "Y" "a" := by
    simp [Tr.inList, strEv, numVals, strVals]
  unfold Prog.run
  rw [compiled0_names]
  simp [compiled0, Tgt.runL, Tgt.run, PE.eval, PE.evalL, ns1, ns0, NS.bind, pyHost0, evalBin, evalShift, Obj.vals, Obj.var, allCmds, mkIfElse, splitArgs, splitConds, oneCmd, PE.yes,
    bind, Except.bind, prog0, hstr]

theorem source0_safe : Stmt.SafeL pyHost0 ctx0 (libOf muU) muU ns1 source0 start := by
  have hcoin : coinD.WF (libOf muU) muU := .nominal (by simp) (by simp)
  have hu : (Distr.real .cont d0 unitIvl).WF (libOf muU) muU := .real rfl (distOK_unif _) unitIvl_wf (by intro h; cases h) (by rw [unitIvl_reals]; simp [muU, unif])
  have hz : (Distr.nominal [("z", 1)]).WF (libOf muU) muU := .nominal (by simp) (by simp)
  have e1 : (PE.call "coin" []).eval pyHost0 ctx0 ns1 = .ok (.dist (.one coinD)) := by simp [PE.eval, PE.evalL, pyHost0, ns1, ns0, NS.bind, bind, Except.bind]
  have e2 : (PE.call "uniform" []).eval pyHost0 ctx0 ns1 = .ok (.dist (.one (.real .cont d0 unitIvl))) := by simp [PE.eval, PE.evalL, pyHost0, ns1, ns0, NS.bind, bind, Except.bind]
  have e3 : (PE.call "zed" []).eval pyHost0 ctx0 ns1 = .ok (.dist (.one (.nominal [("z", 1)]))) := by simp [PE.eval, PE.evalL, pyHost0, ns1, ns0, NS.bind, bind, Except.bind]
  simp only [source0, Stmt.SafeL, Stmt.Safe, and_true, List.cons_ne_self, reduceCtorEq, false_implies]
  refine ⟨?_, ⟨.left (t := .id "Y") (by simp [PE.eval, ns1, NS.bind]) (by simp [PE.eval]), Filter.Eventually.of_forall fun ω => .cmp (by simp)⟩, ?_, ?_⟩
  · rw [assignSafe_leaf rfl, e1]
    exact ⟨by simp [PE.NoEq, PE.NoEqL], by rintro d h; cases h; exact .one hcoin⟩
  · rw [assignSafe_leaf rfl, e2]
    exact ⟨by simp [PE.NoEq, PE.NoEqL], by rintro d h; cases h; exact .one hu⟩
  · rw [assignSafe_leaf rfl, e3]
    exact ⟨by simp [PE.NoEq, PE.NoEqL], by rintro d h; cases h; exact .one hz⟩

/-- C46 non-vacuity: the program meets the hypotheses, from its source to the SPE. -/
example : ∃ p cmd s, compile ["coin", "uniform", "zed"] 5 source0 = .ok p ∧ p.run pyHost0 ctx0 ns0 = .ok cmd ∧ cmd.interp opts0 none = .ok (some s) ∧
    s.den muU = Stmt.semL pyHost0 ctx0 muU ns1 source0 start :=
  ⟨_, _, _, source0_compile, compiled0_run, prog0_run, (C46_program_partial (o := opts0) ctx0_correct (simpOK_none _ _ _) source0_compile compiled0_run compiled0_names
    ns1_canonical (by simp [compiled0]) source0_safe prog0_safe prog0_run).1⟩

/-- `n = 2`; `A = array(n)`; `for i in range(0, n): A[i] ~= coin()`. -/
def source1 : List Stmt :=
  [.assign (.name "n") (.lit (.int 2)), .assign (.name "A") (.call "array" [.name "n"]),
    .forr "i" (.lit (.int 0)) (.name "n") [.assign (.sub "A" (.name "i")) (.call "coin" [])]]

/-- C46 non-vacuity: a constant, an array and a loop: two independent coins `A[0]` and `A[1]`. -/
example : ∃ p cmd, compile ["coin"] 5 source1 = .ok p ∧ p.run pyHost0 ctx0 ns0 = .ok cmd ∧
    cmd.sem muU start = withIndep "A[1]" (coinD.law muU "A[1]") (withIndep "A[0]" (coinD.law muU "A[0]") start) := by
  refine ⟨⟨[(.name "n", .lit (.int 2))], [], [("A", .name "n")], [.seq [.forr (.lit (.int 0)) (.name "n") "i" [.sample (.sub "A" (.name "i")) (.call "coin" [])]]]⟩, 
    .seq [.forr 0 2 (tabulate 0 [.sample "A[0]" (.one coinD), .sample "A[1]" (.one coinD)])], ?_, ?_, ?_⟩
  · have h1 : visit ["coin"] 5 ["global"] (.assign (.name "n") (.lit (.int 2))) ⟨false, [], [], []⟩ = .ok ([], ⟨false, [(.name "n", .lit (.int 2))], [], []⟩) := by
      simp [visit, visitAssign, visitPy, PE.names]
    have h2 : visit ["coin"] 5 ["global"] (.assign (.name "A") (.call "array" [.name "n"])) ⟨false, [(.name "n", .lit (.int 2))], [], []⟩ =
        .ok ([], ⟨false, [(.name "n", .lit (.int 2))], [("A", .array (.name "n"))], []⟩) := by
      simp [visit, visitAssign, visitArray, PE.names, PE.namesL]
    have h3 : visit ["coin"] 4 ["global", "for"] (.assign (.sub "A" (.name "i")) (.call "coin" [])) ⟨false, [(.name "n", .lit (.int 2))], [("A", .array (.name "n"))], []⟩ =
        .ok ([.sample (.sub "A" (.name "i")) (.call "coin" [])], ⟨false, [(.name "n", .lit (.int 2))], [("A", .array (.name "n"))], ["coin"]⟩) :=
      visit_dist (by simp) (by simp) (by simp [declare, List.lookup])
    have h4 : visit ["coin"] 5 ["global"] (.forr "i" (.lit (.int 0)) (.name "n") [.assign (.sub "A" (.name "i")) (.call "coin" [])])
        ⟨false, [(.name "n", .lit (.int 2))], [("A", .array (.name "n"))], []⟩ = .ok ([.forr (.lit (.int 0)) (.name "n") "i" [.sample (.sub "A" (.name "i")) (.call "coin" [])]],
          ⟨false, [(.name "n", .lit (.int 2))], [("A", .array (.name "n"))], ["coin"]⟩) := by
      rw [visit]
      simp only [visitModule, visitItems, List.cons_append, List.nil_append, h3, bind, Except.bind]
      simp [sequenceBlock]
    simp only [compile, source1, visitModule, visitItems, h1, h2, h4, bind, Except.bind]
    simp [sequenceBlock, VS.varNames, VS.arrays]
  · have hn : Prog.names pyHost0 ctx0 ⟨[(.name "n", .lit (.int 2))], [], [("A", .name "n")],
        [.seq [.forr (.lit (.int 0)) (.name "n") "i" [.sample (.sub "A" (.name "i")) (.call "coin" [])]]]⟩ ns0 = .ok ((ns0.bind "n" (.int 2)).bind "A" (idArray "A" 2)) := by
      simp [Prog.names, runConstants, runVariables, runArrays, PE.eval, NS.bind, bind, Except.bind]
    have hb : ∀ (k : ℕ), k < 2 → Tgt.runL pyHost0 ctx0 (((ns0.bind "n" (.int 2)).bind "A" (idArray "A" 2)).bind "i" (.int k)) [.sample (.sub "A" (.name "i")) (.call "coin" [])] =
        .ok [.cmd (.sample s!"A[{k}]" (.one coinD))] := by
      intro k hk
      simp [Tgt.runL, Tgt.run, PE.eval, PE.evalL, NS.bind, idArray, hk, pyHost0, Obj.var, bind, Except.bind]
      rfl
    have h0 := hb 0 (by simp)
    have h1 := hb 1 (by simp)
    have hr : (PE.name "n").eval pyHost0 ctx0 ((ns0.bind "n" (.int 2)).bind "A" (idArray "A" 2)) = .ok (.int 2) := by simp [PE.eval, NS.bind]
    have hf : Tgt.run pyHost0 ctx0 ((ns0.bind "n" (.int 2)).bind "A" (idArray "A" 2)) (.forr (.lit (.int 0)) (.name "n") "i" [.sample (.sub "A" (.name "i")) (.call "coin" [])]) =
        .ok (.cmd (.forr 0 2 (tabulate 0 [.sample "A[0]" (.one coinD), .sample "A[1]" (.one coinD)]))) := by
      rw [Tgt.run]
      simp only [hr, show (PE.lit (.int 0)).eval pyHost0 ctx0 ((ns0.bind "n" (.int 2)).bind "A" (idArray "A" 2)) = .ok (.int 0) by simp [PE.eval], bind, Except.bind, intRange,
        show ((2 : ℤ) - 0).toNat = 2 from rfl, show List.range 2 = [0, 1] from rfl, List.map_cons, List.map_nil, List.mapM_cons, List.mapM_nil, pure, Except.pure, zero_add, h0, h1, oneCmd]
      rfl
    have hs : ∀ (ρ : NS) (t : Tgt) (p : Cmd), t.run pyHost0 ctx0 ρ = .ok (.cmd p) → Tgt.runL pyHost0 ctx0 ρ [.seq [t]] = .ok [.cmd (.seq [p])] := by
      intro ρ t p h
      simp only [Tgt.runL, Tgt.run, h, bind, Except.bind, allCmds]
    unfold Prog.run
    rw [hn]
    simp only [bind, Except.bind, hs _ _ _ hf, oneCmd]
  · simp [Cmd.sem, Cmd.semL, tabulate, List.range_succ, Source.law]

/-- C46: the constants of a program are the keys of a dictionary, so an assignment that was made before is not made again: after `a = 1`, `a = 2`, `a = 1` the constant `a` is 2. -/
theorem C46_constants_wrong (H : PyHost) (c : Ctx) (ρ₀ : NS) : ∃ p ρ, compile [] 1 [.assign (.name "a") (.lit (.int 1)), .assign (.name "a") (.lit (.int 2)), .assign (.name "a") (.lit (.int 1))] = .ok p ∧
    p.names H c ρ₀ = .ok ρ ∧ ρ "a" = some (.int 2) := by
  refine ⟨⟨[(.name "a", .lit (.int 1)), (.name "a", .lit (.int 2))], [], [], [.seq []]⟩, (ρ₀.bind "a" (.int 1)).bind "a" (.int 2), ?_, ?_, ?_⟩
  · have h : ∀ (z : ℤ) (cs : List (Target × PE)), ((Target.name "a", PE.lit (.int z)) ∉ cs) → visit [] 1 ["global"] (.assign (.name "a") (.lit (.int z))) ⟨false, cs, [], []⟩ =
        .ok ([], ⟨false, cs ++ [(.name "a", .lit (.int z))], [], []⟩) := by
      intro z cs hz
      simp [visit, visitAssign, visitPy, PE.names, hz]
    have h' : visit [] 1 ["global"] (.assign (.name "a") (.lit (.int 1))) ⟨false, [(.name "a", .lit (.int 1)), (.name "a", .lit (.int 2))], [], []⟩ =
        .ok ([], ⟨false, [(.name "a", .lit (.int 1)), (.name "a", .lit (.int 2))], [], []⟩) := by
      simp [visit, visitAssign, visitPy, PE.names]
    have h1 := h 1 [] (by simp)
    have h2 := h 2 [(.name "a", .lit (.int 1))] (by simp)
    simp only [List.nil_append, List.cons_append] at h1 h2
    simp only [compile, visitModule, visitItems, h1, h2, h', bind, Except.bind]
    simp [sequenceBlock, VS.varNames, VS.arrays]
  · simp only [Prog.names, runConstants, runVariables, runArrays, bind, Except.bind, PE.eval]
  · simp [NS.bind]

end Sppl
