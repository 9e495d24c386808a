import Verif.Comp.RenderAvg
import Verif.Comp.Example
import Verif.Spe.Example

/-!
# The properties of `render_sppl`
-/

namespace Sppl
open Classical MeasureTheory
open scoped ENNReal ProbabilityTheory

section
variable {D : List String} {H : PyHost} {c : Ctx} {L : Lib} {μ : Dist → Measure ℝ}

/-- C48: the source that is written for an SPE compiles and runs, and the program gives the variables of the SPE the distribution of the SPE.

Partial: SPEs whose distributions Python knows by name and keywords, whose derived variables are read back as expressions with the same values, whose symbols are
names that do not hide distributions or branch variables, whose weights are rational, without atomic leaves (see `Spe.CanRender` and the negations below). -/
theorem C48_render_partial (hch : H.Choice D) {s : Spe} (hw : s.WF c L μ) (hc : s.CanRender D H c L μ) (hb : ∀ n, branchVar n ∉ s.symbols)
    (hD : ∀ f ∈ D, f ∉ s.symbols ∧ ∀ n, f ≠ branchVar n) :
    ∃ source, renderSppl s = .ok source ∧ ∃ N p cmd, (∀ n, N ≤ n → compile D n source = .ok p) ∧ (∀ ρ₀ : NS, (∀ f ∈ D, ρ₀ f = none) → p.run H c ρ₀ = .ok cmd) ∧
      cmd.Safe c L μ start ∧ (cmd.sem μ start).map (keep s.symbols) = s.den μ := by
  obtain ⟨src, h1, N, p, h2, h3⟩ := render_top hch hw hc hb hD
  obtain ⟨h4, h5⟩ := render_sem hw hc hb
  exact ⟨src, h1, N, p, _, h2, h3, h4, h5⟩

/-- C48: together with C30, writing an SPE, compiling the source and interpreting the command, if it succeeds, gives an SPE that gives the same probability to every
measurable set of values of the variables. -/
theorem C48_again_partial {o : Opts} (ho : o.c.Correct) (hsimp : SimpOK o.c o.L μ o.simp) (hch : H.Choice D) {s : Spe} (hw : s.WF o.c o.L μ) (hc : s.CanRender D H o.c o.L μ)
    (hb : ∀ n, branchVar n ∉ s.symbols) (hD : ∀ f ∈ D, f ∉ s.symbols ∧ ∀ n, f ≠ branchVar n) :
    ∃ source, renderSppl s = .ok source ∧ ∃ N p cmd, (∀ n, N ≤ n → compile D n source = .ok p) ∧ (∀ ρ₀ : NS, (∀ f ∈ D, ρ₀ f = none) → p.run H o.c ρ₀ = .ok cmd) ∧
      ∀ s', cmd.interp o none = .ok (some s') → s'.WF o.c o.L μ ∧ (s'.den μ).map (keep s.symbols) = s.den μ ∧
        ∀ A : Set Asg, MeasurableSet A → (∀ ω, keep s.symbols ω ∈ A ↔ ω ∈ A) → s'.den μ A = s.den μ A := by
  obtain ⟨src, h1, N, p, cmd, h2, h3, h4, h5⟩ := C48_render_partial hch hw hc hb hD
  refine ⟨src, h1, N, p, cmd, h2, h3, ?_⟩
  intro s' hs'
  obtain ⟨e1, e2⟩ := C30_program_partial ho hsimp h4 hs'
  refine ⟨e2, by rw [e1, h5], ?_⟩
  intro A hA hk
  rw [← h5, Measure.map_apply (measurable_keep _) hA, e1]
  congr 1
  ext ω
  exact (hk ω).symm

/-! ## Where it fails -/

/-- C48: atomic leaves cannot be written. -/
theorem C48_atomic_wrong (X : String) (v : ℝ) (env : Env) : renderSppl (.atomic X v env) = .error .assertion := by
  simp [renderSppl, Spe.render, bind, Except.bind]

/-- C48: `2*X` is written `2(X)`, which Python refuses to evaluate. -/
theorem C48_coefficient_wrong (H : PyHost) (c : Ctx) (ρ : NS) : ∃ e, (Tr.poly (.id "X") [0, 2]).source = .ok e ∧ e.eval H c ρ = .error .type := by
  have hX : isName "X" = true := by decide
  refine ⟨.host ["X"] (fun _ => .error .type), ?_, by simp [PE.eval]⟩
  simp [Tr.source, Tr.text, hX, polyTerms, polyTerm, inParens, readTerms, Term.read, bind, Except.bind, PE.names]

/-- C48: `abs(X)` and logarithms to other bases than 2 and e are written as texts that Python cannot parse. -/
theorem C48_syntax_wrong (t : Tr) (b : ℝ) (h1 : b ≠ Real.exp 1) (h2 : b ≠ 2) : (∃ e, (Tr.abs t).source = .error e) ∧ ∃ e, (Tr.log t b).source = .error e := by
  refine ⟨⟨.value, by simp [Tr.source, Tr.text, bind, Except.bind]⟩, ?_⟩
  simp only [Tr.source, Tr.text, bind, Except.bind]
  cases t.text with
  | error e => exact ⟨e, rfl⟩
  | ok ts =>
    simp only
    cases inParens ts with
    | error e => exact ⟨e, rfl⟩
    | ok p => exact ⟨.value, by simp [h1, h2]⟩

/-- C48: `exp(X)`, `log(X)` and the logarithm to base 2 are written as calls of `exp`, `ln` and `log2`.  The module that is generated imports none of these names, so that what
happens is what Python does for the call of a name that is not there: the source cannot be executed. -/
theorem C48_names_wrong (H : PyHost) (c : Ctx) (ρ : NS) (hρ : ρ "X" = some (.tr (.id "X"))) (hn : ∀ f ∈ ["exp", "ln", "log2"], ρ f = none)
    (err : Err) (hH : ∀ f ∈ ["exp", "ln", "log2"], H.call f [.tr (.id "X")] = .error err) :
    (∃ e, (Tr.exp (.id "X") (Real.exp 1)).source = .ok e ∧ e.names = ["exp", "X"] ∧ e.eval H c ρ = .error err) ∧
    (∃ e, (Tr.log (.id "X") (Real.exp 1)).source = .ok e ∧ e.names = ["ln", "X"] ∧ e.eval H c ρ = .error err) ∧
    ∃ e, (Tr.log (.id "X") 2).source = .ok e ∧ e.names = ["log2", "X"] ∧ e.eval H c ρ = .error err := by
  have hX : isName "X" = true := by decide
  have h2 : (2 : ℝ) ≠ Real.exp 1 := by
    have := Real.add_one_lt_exp (x := 1) one_ne_zero
    intro h; rw [← h] at this; norm_num at this
  simp only [List.mem_cons, List.not_mem_nil, or_false, forall_eq_or_imp, forall_eq] at hn hH
  obtain ⟨n1, n2, n3⟩ := hn
  obtain ⟨h1, h3, h4⟩ := hH
  refine ⟨⟨.call "exp" [.name "X"], ?_, by simp [PE.names, PE.namesL], ?_⟩, ⟨.call "ln" [.name "X"], ?_, by simp [PE.names, PE.namesL], ?_⟩, .call "log2" [.name "X"], ?_, by simp [PE.names, PE.namesL], ?_⟩
  · simp [Tr.source, Tr.text, hX, inParens, readTerms, Term.read, bind, Except.bind]
  · simp [PE.eval, PE.evalL, hρ, n1, h1, bind, Except.bind]
  · simp [Tr.source, Tr.text, hX, inParens, readTerms, Term.read, bind, Except.bind]
  · simp [PE.eval, PE.evalL, hρ, n2, h3, bind, Except.bind]
  · simp [Tr.source, Tr.text, hX, h2, inParens, readTerms, Term.read, bind, Except.bind]
  · simp [PE.eval, PE.evalL, hρ, n3, h4, bind, Except.bind]

/-- Arithmetic of numbers and transforms, as the operators of transforms.py do it. -/
noncomputable def arith : BinOp → Obj → Obj → Res Obj
  | .other "+", .num x, .num y => .ok (.num (x + y))
  | .other "+", .num x, .tr t => (t.addNum x).map .tr
  | .other "/", .num x, .num y => if y = 0 then .error .value else .ok (.num (x / y))
  | .other "/", .num x, .tr t => (t.rdivNum x).map .tr
  | .other "**", .tr t, .int z => (t.powNum z).map .tr
  | _, _, _ => .error .type

/-- C48: `1/(1 + X)` is written `(1/1 + X)` and read as `1 + X`: without any error, the derived variable has other values. -/
theorem C48_reciprocal_wrong {H : PyHost} (hH : ∀ op l r, H.bin op l r = arith op l r) (c : Ctx) (ρ : NS) (hρ : ρ "X" = some (.tr (.id "X"))) :
    ∃ e r, (Tr.recip (.poly (.id "X") [1, 1])).source = .ok e ∧ e.eval H c ρ = .ok (.tr r) ∧
      r.eval (baseAsg "X" (.num 1)) = some (.num 2) ∧ (Tr.recip (.poly (.id "X") [1, 1])).eval (baseAsg "X" (.num 1)) = some (.num (1 / 2)) := by
  have hX : isName "X" = true := by decide
  refine ⟨.bin (.other "+") (.bin (.other "/") (.lit (.num 1)) (.lit (.num 1))) (.name "X"), .poly (.id "X") [1, 1], ?_, ?_, ?_, ?_⟩
  · simp [Tr.source, Tr.text, hX, polyTerms, polyTerm, oneOver, readTerms, Term.read, bind, Except.bind]
  · simp [PE.eval, hρ, evalBin, hH, arith, Tr.addNum, polyify, mkPoly, bind, Except.bind, Except.map]
  · simp [Tr.eval, baseAsg, onNum, polyVal]; norm_num
  · simp [Tr.eval, baseAsg, onNum, polyVal, recipVal]; norm_num

/-- C48: positional arguments are not written: distributions with other arguments are written the same. -/
theorem C48_arguments_wrong (k : Kind) (X : String) (d : Dist) (supp : Ivl EReal) (cond : Bool) (env : Env) (as : List ℝ) :
    renderSppl (.real k X { d with args := as } supp cond env) = renderSppl (.real k X d supp cond env) := by
  simp only [renderSppl, Spe.render, keywords]

/-- C48: the source of a mixture with a variable `branch_var_0`, as a compiled source has, does not compile. -/
theorem C48_twice_wrong (D : List String) (hD : "choice" ∈ D) (n : ℕ) (p : Prog) :
    ∃ source, renderSppl (.sum [.nominal (branchVar 0) [("0", 1)], .nominal (branchVar 0) [("1", 1)]] [1 / 2, 1 / 2]) = .ok source ∧ compile D n source ≠ .ok p := by
  have h0 : plainKey "0" = true := by decide
  have h1 : plainKey "1" = true := by decide
  have e0 : Nat.repr 0 = "0" := rfl
  have e1 : Nat.repr 1 = "1" := rfl
  have hn : isName (branchVar 0) = true := isName_branch 0
  refine ⟨[.assign (.name (branchVar 0)) (.call "choice" [.lit (dictObj [("0", 1 / 2), ("1", 1 / 2)])]),
    .ifs (branchTest 0 0) [.assign (.name (branchVar 0)) (.call "choice" [.lit (dictObj [("0", 1)])])]
      [.ifs (branchTest 0 1) [.assign (.name (branchVar 0)) (.call "choice" [.lit (dictObj [("1", 1)])])] []]], ?_, ?_⟩
  · simp [renderSppl, Spe.render, Spe.renderL, renderChoice, renderElifs, renderBranches, branchDist, hn, h0, h1, e0, e1, List.range_succ, bind, Except.bind]
  · intro h
    match n with
    | 0 => simp [compile, visitModule, visitItems, visit, bind, Except.bind] at h
    | 1 => simp [compile, visitModule, visitItems, visit, visitAssign, PE.names, PE.namesL, hD, visitRandom, declare, unrollIf, visitBranches, bind, Except.bind] at h
    | n + 2 => simp [compile, visitModule, visitItems, visit, visitAssign, PE.names, PE.namesL, hD, visitRandom, declare, unrollIf, visitBranches, bind, Except.bind] at h

/-- C46: a variable with the name of its distribution: the program compiles, but the compiled module raises `TypeError`, since the variable hides the distribution. -/
theorem C46_hidden_wrong (H : PyHost) (c : Ctx) (ρ₀ : NS) (f : String) (hf : f ≠ "array") :
    ∃ p, (∀ n, 1 ≤ n → compile [f] n [.assign (.name f) (.call f [])] = .ok p) ∧ p.run H c ρ₀ = .error .type := by
  refine ⟨⟨[], [f], [], [.seq [.sample (.name f) (.call f [])]]⟩, ?_, ?_⟩
  · intro n hn
    obtain ⟨n, rfl⟩ := Nat.exists_eq_add_of_le' hn
    have hd : declare ["global"] (.name f) ⟨false, [], [], [f]⟩ = .ok ⟨false, [], [(f, .scalar)], [f]⟩ := by simp [declare]
    have := visit_dist (D := [f]) (n := n) (ctx := ["global"]) (target := .name f) (f := f) (st := ⟨false, [], [], []⟩) (by simp) hf (by simpa using hd)
    simp [compile, visitModule, visitItems, this, bind, Except.bind, sequenceBlock, VS.varNames, VS.arrays, Target.expr]
  · simp [Prog.run, Prog.names, runConstants, runVariables, runArrays, Tgt.runL, Tgt.run, PE.eval, PE.evalL, NS.bind, Obj.var, bind, Except.bind]

end

/-! ## An SPE that can be written -/

/-- Python, with `choice`, one distribution, and the arithmetic of transforms. -/
noncomputable def pyHost1 : PyHost where
  call f args :=
    if f = "choice" then
      match args with
      | [o] => if h : ∃ dist : List (String × ℚ), o = dictObj (dist.map (fun p => (p.1, (p.2 : ℝ)))) then .ok (.dist (.one (.nominal h.choose))) else .error .type
      | _ => .error .type
    else if f = "uniform" then .ok (.dist (.one (.real .cont d0 unitIvl))) else .error .key
  bin := arith
  un _ _ := .error .type
  cmp _ _ _ := .error .type

theorem pyHost1_choice : pyHost1.Choice ["choice", "uniform"] := by
  refine ⟨by simp, fun dist _ => ?_⟩
  have h : ∃ dist' : List (String × ℚ), dictObj (dist.map (fun p => (p.1, (p.2 : ℝ)))) = dictObj (dist'.map (fun p => (p.1, (p.2 : ℝ)))) := ⟨dist, rfl⟩
  have e : Obj.coll (dist.map (fun p => .coll [.str p.1, .num (p.2 : ℝ)])) = dictObj (dist.map (fun p => (p.1, (p.2 : ℝ)))) := by simp [dictObj]
  rw [e]
  simp only [pyHost1, if_true]
  rw [dif_pos h]
  have hs := h.choose_spec
  have inj : ∀ l m : List (String × ℚ), dictObj (l.map (fun p => (p.1, (p.2 : ℝ)))) = dictObj (m.map (fun p => (p.1, (p.2 : ℝ)))) → l = m := by
    intro l m e
    simp only [dictObj, List.map_map, Obj.coll.injEq] at e
    refine List.map_injective_iff.2 ?_ e
    rintro ⟨a, b⟩ ⟨a', b'⟩ e
    simpa using e
  rw [← inj _ _ hs]

/-- `[0, 1/2]`. -/
noncomputable def halfIvl : Ivl EReal := ⟨((0 : ℝ) : EReal), ((1 / 2 : ℝ) : EReal), false, false⟩

theorem halfIvl_wf : halfIvl.WF := ⟨by simp only [halfIvl]; exact_mod_cast (by norm_num : (0 : ℝ) < 1 / 2), fun h => absurd h (EReal.coe_ne_bot _), fun h => absurd h (EReal.coe_ne_top _)⟩

/-- `X` and `Y = X**2`. -/
noncomputable def envSq : Env := [("X", .id "X"), ("Y", .poly (.id "X") [0, 0, 1])]

theorem envSq_ok (c : Ctx) : EnvOK c "X" envSq := by
  refine ⟨.step (env := [("X", .id "X")]) .base (by simp [Env.keys]) (by simp [Tr.symbols, Env.keys]) (by simp [Tr.SymOk]), ?_⟩
  intro p hp
  simp only [envSq, List.mem_cons, List.not_mem_nil, or_false] at hp
  rcases hp with rfl | rfl
  · exact .id _
  · exact .poly (.id _) (by simp)

theorem envSq_regular (x : ℝ) : EnvRegular "X" envSq x := by
  intro p hp
  simp only [envSq, List.mem_cons, List.not_mem_nil, or_false] at hp
  rcases hp with rfl | rfl <;> simp [Tr.Regular]

/-- `X**2` is read back. -/
theorem sq_reads (c : Ctx) : (Tr.poly (.id "X") [0, 0, 1]).ReadsAs ["choice", "uniform"] pyHost1 c (.poly (.id "X") [0, 0, 1]) where
  read := by
    have hX : isName "X" = true := by decide
    refine ⟨.bin (.other "**") (.name "X") (.lit (.int 2)), ?_, ⟨"X", by simp [PE.names], by simp [Tr.symbols]⟩, ?_, ?_⟩
    · simp [Tr.source, Tr.text, hX, polyTerms, polyTerm, inParens, readTerms, Term.read, bind, Except.bind]
    · simp [PE.names]
    · intro ρ hρ
      have := hρ "X" (by simp [Tr.symbols])
      simp [PE.eval, this, evalBin, pyHost1, arith, Tr.powNum, Tr.powInt, powTr, mkPoly, show Int.toNat 2 = 2 from rfl, List.replicate, bind, Except.bind, Except.map]
  eval := fun _ => rfl
  made := .poly (.id _) (by simp)
  regular := fun _ h => h

/-- With probability 1/4, `X` is in `[0, 1/2]` and `Z` is `'a'`; otherwise `X` is in `[0, 1]` and `Z` is `'a'` or `'b'`; and `Y = X**2`. -/
noncomputable def model1 : Spe := .sum [.prod [.real .cont "X" d0 halfIvl true envSq, .nominal "Z" [("a", 1)]],
  .prod [.real .cont "X" d0 unitIvl false envSq, .nominal "Z" [("a", 1 / 2), ("b", 1 / 2)]]] [1 / 4, 3 / 4]

theorem model1_wf (c : Ctx) : model1.WF c (libOf muU) muU := by
  have h1 : (Spe.real .cont "X" d0 halfIvl true envSq).WF c (libOf muU) muU := by
    refine .real (distOK_unif d0) (envSq_ok c) halfIvl_wf (by intro h; cases h) ?_ (Filter.Eventually.of_forall envSq_regular)
    rw [if_pos rfl]
    have : halfIvl.reals = Set.Icc 0 (1 / 2) := by
      ext x
      simp only [halfIvl, Ivl.reals, Set.mem_ofPred_eq, Ivl.Mem, Bool.false_eq_true, if_false, EReal.coe_le_coe_iff, Set.mem_Icc]
    rw [this]
    have h2 : Set.Icc (0 : ℝ) (1 / 2) ∩ Set.Icc 0 1 = Set.Icc 0 (1 / 2) := by
      rw [Set.Icc_inter_Icc]; norm_num
    simp only [muU, unif]
    rw [Measure.restrict_apply measurableSet_Icc, h2, Real.volume_Icc]
    simp
  have h2 : (Spe.real .cont "X" d0 unitIvl false envSq).WF c (libOf muU) muU := by
    refine .real (distOK_unif d0) (envSq_ok c) unitIvl_wf (by intro h; cases h) ?_ (Filter.Eventually.of_forall envSq_regular)
    simp only [Bool.false_eq_true, if_false, unitIvl_reals]
    simp [muU, unif]
  refine .sum (S := {"X", "Y", "Z"}) ?_ (by simp) (by simp) ?_ ?_ ?_
  · intro s hs
    simp only [List.mem_cons, List.not_mem_nil, or_false] at hs
    rcases hs with rfl | rfl
    · refine .prod ?_ (by simp) (by simp [Spe.symbolsL, Spe.symbols, envSq])
      intro s hs
      simp only [List.mem_cons, List.not_mem_nil, or_false] at hs
      rcases hs with rfl | rfl
      · exact h1
      · exact .nominal (by simp) (by simp) (by simp)
    · refine .prod ?_ (by simp) (by simp [Spe.symbolsL, Spe.symbols, envSq])
      intro s hs
      simp only [List.mem_cons, List.not_mem_nil, or_false] at hs
      rcases hs with rfl | rfl
      · exact h2
      · exact .nominal (by simp) (by simp) (by norm_num)
  · intro w hw
    simp only [List.mem_cons, List.not_mem_nil, or_false] at hw
    rcases hw with rfl | rfl <;> norm_num
  · norm_num
  · intro s hs
    simp only [List.mem_cons, List.not_mem_nil, or_false] at hs
    rcases hs with rfl | rfl <;> · ext x; simp [Spe.symbols, Spe.symbolsL, envSq]

theorem model1_can (c : Ctx) : model1.CanRender ["choice", "uniform"] pyHost1 c (libOf muU) muU := by
  have hd : (Distr.real .cont d0 unitIvl).WF (libOf muU) muU := .real rfl (distOK_unif _) unitIvl_wf (by intro h; cases h) (by rw [unitIvl_reals]; simp [muU, unif])
  have hr : ∀ supp cond, (Spe.real .cont "X" d0 supp cond envSq).CanRender ["choice", "uniform"] pyHost1 c (libOf muU) muU := by
    intro supp cond
    refine .real (dom := unitIvl) ?_ (by simp [d0]) (by simp [d0]) (by simp [pyHost1, d0]) hd ?_
    · intro x hx
      simp only [envSq, List.map_cons, List.map_nil, List.mem_cons, List.not_mem_nil, or_false] at hx
      rcases hx with rfl | rfl <;> decide
    · intro p hp
      simp only [envSq, List.tail_cons, List.mem_cons, List.not_mem_nil, or_false] at hp
      subst hp
      exact ⟨_, sq_reads c⟩
  refine .sum ?_ ?_
  · intro s hs
    simp only [List.mem_cons, List.not_mem_nil, or_false] at hs
    rcases hs with rfl | rfl
    · refine .prod ?_
      intro s hs
      simp only [List.mem_cons, List.not_mem_nil, or_false] at hs
      rcases hs with rfl | rfl
      · exact hr _ _
      · exact .nominal (by decide) (by simp; decide)
    · refine .prod ?_
      intro s hs
      simp only [List.mem_cons, List.not_mem_nil, or_false] at hs
      rcases hs with rfl | rfl
      · exact hr _ _
      · exact .nominal (by decide) (by simp; decide)
  · intro w hw
    simp only [List.mem_cons, List.not_mem_nil, or_false] at hw
    rcases hw with rfl | rfl
    · exact ⟨1 / 4, by norm_num⟩
    · exact ⟨3 / 4, by norm_num⟩

theorem model1_symbols : model1.symbols = {"X", "Y", "Z"} := by
  ext x; simp [model1, Spe.symbols, Spe.symbolsL, envSq]

theorem branchVar_ne {x : String} (h : x.toList.length < 11) (n : ℕ) : branchVar n ≠ x := by
  rintro rfl
  have h1 : (branchVar n).toList = "branch_var_".toList ++ Nat.toDigits 10 n := by
    simp only [branchVar, String.toList_append, ← toList_nat]
    rfl
  rw [h1, List.length_append] at h
  have h3 : "branch_var_".toList.length = 11 := by decide
  omega

/-- C48 non-vacuity: the hypotheses hold for `model1`. -/
example (c : Ctx) : pyHost1.Choice ["choice", "uniform"] ∧ model1.WF c (libOf muU) muU ∧ model1.CanRender ["choice", "uniform"] pyHost1 c (libOf muU) muU ∧
    (∀ n, branchVar n ∉ model1.symbols) ∧ ∀ f ∈ ["choice", "uniform"], f ∉ model1.symbols ∧ ∀ n, f ≠ branchVar n := by
  refine ⟨pyHost1_choice, model1_wf c, model1_can c, ?_, ?_⟩
  · intro n
    rw [model1_symbols]
    simp only [Finset.mem_insert, Finset.mem_singleton, not_or]
    exact ⟨branchVar_ne (by decide) n, branchVar_ne (by decide) n, branchVar_ne (by decide) n⟩
  · intro f hf
    rw [model1_symbols]
    simp only [List.mem_cons, List.not_mem_nil, or_false] at hf
    rcases hf with rfl | rfl
    · exact ⟨by decide, fun n => (branchVar_ne (by decide) n).symm⟩
    · exact ⟨by decide, fun n => (branchVar_ne (by decide) n).symm⟩

/-- C48 non-vacuity: the hypotheses of `C48_names_wrong` hold for `pyHost1`. -/
example : (∀ f ∈ ["exp", "ln", "log2"], (fun x => if x = "X" then some (.tr (.id "X")) else none : NS) f = none) ∧
    ∀ f ∈ ["exp", "ln", "log2"], pyHost1.call f [.tr (.id "X")] = .error .key := by
  simp [pyHost1]

end Sppl
