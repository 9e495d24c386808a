import Verif.Comp.TotalProps

set_option linter.all false

/-!
# C46: calls, `enumerate` and `constrain` in programs
-/

namespace Sppl
open Classical MeasureTheory
open scoped ENNReal ProbabilityTheory

theorem visitItems_append {α : Type} (f : α → VS → Res (List Tgt × VS)) (l1 l2 : List α) : ∀ st, visitItems f (l1 ++ l2) st =
    (do let a ← visitItems f l1 st; let b ← visitItems f l2 a.2; .ok (a.1 ++ b.1, b.2)) := by
  induction l1 with
  | nil =>
    intro st
    simp only [List.nil_append, visitItems, bind, Except.bind]
    cases visitItems f l2 st <;> rfl
  | cons x xs ih =>
    intro st
    simp only [List.cons_append, visitItems, ih, bind, Except.bind]
    cases f x st with
    | error e => rfl
    | ok a =>
      simp only
      cases visitItems f xs a.2 with
      | error e => rfl
      | ok b =>
        simp only
        cases visitItems f l2 b.2 with
        | error e => rfl
        | ok d => simp only [List.append_assoc]

/-- C46: a call of any function but `condition` and `constrain` is left out of the compiled module, without an error, wherever it is at the top of a program: `conditon(X > 1)` does not
condition. -/
theorem C46_calls_ignored (D : List String) {f : String} (h1 : f ≠ "condition") (h2 : f ≠ "constrain") (args : List PE) (l1 l2 : List Stmt) {n : ℕ} (hn : 1 ≤ n) :
    compile D n (l1 ++ .call f args :: l2) = compile D n (l1 ++ l2) := by
  obtain ⟨n, rfl⟩ := Nat.exists_eq_add_of_le' hn
  have e : visitItems (visit D (n + 1) ["global"]) (l1 ++ .call f args :: l2) = visitItems (visit D (n + 1) ["global"]) (l1 ++ l2) := by
    funext st
    rw [visitItems_append, visitItems_append]
    have : visitItems (visit D (n + 1) ["global"]) (.call f args :: l2) = visitItems (visit D (n + 1) ["global"]) l2 := by
      funext st
      have hv : visit D (n + 1) ["global"] (.call f args) st = .ok ([], st) := by simp [visit, h1, h2]
      simp only [visitItems, hv, bind, Except.bind]
      cases visitItems (visit D (n + 1) ["global"]) l2 st <;> rfl
    rw [this]
  simp only [compile, visitModule, e, Bool.or_true]

/-- C46: so a misspelt `condition` gives a program that means something else: both are compiled, and the modules run, to a command that conditions on `X < 1` and one that does not. -/
theorem C46_calls_wrong : ∃ p q, (∀ n, 1 ≤ n → compile ["uniform"] n [.assign (.name "X") (.call "uniform" []), .condition ltX] = .ok p) ∧
    (∀ n, 1 ≤ n → compile ["uniform"] n [.assign (.name "X") (.call "uniform" []), .call "conditon" [ltX]] = .ok q) ∧
    ∃ e, p.run pyHost0 ctx0 ns0 = .ok (.seq [.sample "X" (.one (.real .cont d0 unitIvl)), .condition e]) ∧
      q.run pyHost0 ctx0 ns0 = .ok (.seq [.sample "X" (.one (.real .cont d0 unitIvl))]) := by
  obtain ⟨e, he, -⟩ := ltX_eval
  have hr : ltX.rewrite = ltX := by simp [PE.rewrite, ltX, rewriteCmp]
  have hv : ∀ n, visit ["uniform"] (n + 1) ["global"] (.assign (.name "X") (.call "uniform" [])) ⟨false, [], [], []⟩ =
      .ok ([.sample (.name "X") (.call "uniform" [])], ⟨false, [], [("X", .scalar)], ["uniform"]⟩) := fun n => visit_dist (by simp) (by simp) (by simp [declare])
  have hs : Tgt.run pyHost0 ctx0 nsX (.sample (.name "X") (.call "uniform" [])) = .ok (.cmd (.sample "X" (.one (.real .cont d0 unitIvl)))) := by
    simp [Tgt.run, PE.eval, PE.evalL, nsX, ns0, NS.bind, pyHost0, Obj.var, bind, Except.bind]
  have hc : Tgt.run pyHost0 ctx0 nsX (.condition ltX) = .ok (.cmd (.condition e)) := by rw [Tgt.run]; simp only [he, bind, Except.bind]
  refine ⟨⟨[], ["X"], [], [.seq [.sample (.name "X") (.call "uniform" []), .condition ltX]]⟩, ⟨[], ["X"], [], [.seq [.sample (.name "X") (.call "uniform" [])]]⟩, ?_, ?_, e, ?_, ?_⟩
  · intro n hn
    obtain ⟨n, rfl⟩ := Nat.exists_eq_add_of_le' hn
    simp only [compile, visitModule, visitItems, hv, bind, Except.bind]
    simp [visit, hr, sequenceBlock, VS.varNames, VS.arrays]
  · intro n hn
    have := C46_calls_ignored ["uniform"] (f := "conditon") (by simp) (by simp) [ltX] [.assign (.name "X") (.call "uniform" [])] [] hn
    simp only [List.cons_append, List.nil_append] at this
    rw [this]
    obtain ⟨n, rfl⟩ := Nat.exists_eq_add_of_le' hn
    simp only [compile, visitModule, visitItems, hv, bind, Except.bind]
    simp [sequenceBlock, VS.varNames, VS.arrays]
  · have hn : Prog.names pyHost0 ctx0 ⟨[], ["X"], [], [.seq [.sample (.name "X") (.call "uniform" []), .condition ltX]]⟩ ns0 = .ok nsX := by
      simp [Prog.names, runConstants, runVariables, runArrays, bind, Except.bind, nsX]
    unfold Prog.run
    rw [hn]
    simp only [Tgt.runL, Tgt.run.eq_1, hs, hc, bind, Except.bind, allCmds, oneCmd]
  · have hn : Prog.names pyHost0 ctx0 ⟨[], ["X"], [], [.seq [.sample (.name "X") (.call "uniform" [])]]⟩ ns0 = .ok nsX := by
      simp [Prog.names, runConstants, runVariables, runArrays, bind, Except.bind, nsX]
    unfold Prog.run
    rw [hn]
    simp only [Tgt.runL, Tgt.run.eq_1, hs, bind, Except.bind, allCmds, oneCmd]

/-! ## A program with `enumerate` and `constrain` -/

/-- The distributions of the example: `pick(0)` is `uniform`, `pick(i)` is `zed` for other numbers. -/
noncomputable def pyHost2 : PyHost where
  call f args := if f = "coin" then .ok (.dist (.one coinD)) else if f = "pick" then
      match args with
      | [.int i] => .ok (.dist (.one (if i = 0 then .real .cont d0 unitIvl else .nominal [("z", 1)])))
      | _ => .error .type
    else .error .key
  bin _ _ _ := .error .type
  un _ _ := .error .type
  cmp _ _ _ := .error .type

/-- `Y ~= coin()`; `switch Y cases (i, v in enumerate(['a', 'b'])): X ~= pick(i)`; `constrain({Y: 'a'})`. -/
def source2 : List Stmt :=
  [.assign (.name "Y") (.call "coin" []),
    .switch (some "i") "v" (.name "Y") (.lit (.coll [.str "a", .str "b"])) [.assign (.name "X") (.call "pick" [.name "i"])],
    .constrain [(.name "Y", .lit (.str "a"))]]

theorem source2_good : GoodProgram ["coin", "pick"] pyHost2 ctx0 ns1 source2 ⟨[], [("Y", .scalar), ("X", .scalar)], true⟩ := by
  have ec : ∀ ρ : NS, ρ "coin" = none → (PE.call "coin" []).eval pyHost2 ctx0 ρ = .ok (.dist (.one coinD)) := by
    intro ρ h; simp [PE.eval, PE.evalL, pyHost2, h, bind, Except.bind]
  have el : ∀ ρ : NS, (PE.lit (.coll [.str "a", .str "b"])).eval pyHost2 ctx0 ρ = .ok (.coll [.str "a", .str "b"]) := by
    intro ρ; simp [PE.eval, PE.evalL, bind, Except.bind]
  have vY : (PE.name "Y").eval pyHost2 ctx0 ns1 = .ok (.tr (.id "Y")) := by simp [PE.eval, ns1, NS.bind]
  refine .cons (d1 := ⟨[], [("Y", .scalar)], true⟩) (.sample (by simp) (by simp) (.fresh rfl rfl rfl) (by simp [PE.NoEq, PE.NoEqL]) ?_)
    (.cons (d1 := ⟨[], [("Y", .scalar), ("X", .scalar)], true⟩) (.switch ?_ (.body (by simp) (by simp) (.cons (.sample (by simp) (by simp) (.fresh rfl rfl (by simp [List.lookup])) (by simp [PE.NoEq, PE.NoEqL]) ?_) .nil)))
      (.cons (.constrain ?_) .nil))
  · rintro ρ rfl; exact ⟨⟨_, vY⟩, _, ec _ (by simp [ns1, ns0, NS.bind])⟩
  · rintro ρ rfl
    exact ⟨⟨_, vY⟩, _, el _, by simp⟩
  · rintro ρ' ⟨ρ, rfl, vs, h1, k, v, h2, rfl⟩
    refine ⟨⟨"X", by simp [Target.expr, PE.eval, NS.case, ns1, NS.bind]⟩, .one (if (k : ℤ) = 0 then .real .cont d0 unitIvl else .nominal [("z", 1)]), ?_⟩
    simp [PE.eval, PE.evalL, pyHost2, NS.case, ns1, ns0, NS.bind, bind, Except.bind]
  · rintro ρ rfl it hit
    simp at hit; subst hit
    exact ⟨⟨_, vY⟩, _, by simp [PE.eval]; rfl, .inl ⟨_, rfl⟩⟩

theorem source2_safe : Stmt.SafeL pyHost2 ctx0 (libOf muU) muU ns1 source2 start := by
  have hcoin : coinD.WF (libOf muU) muU := .nominal (by simp) (by simp)
  have hu : (Distr.real .cont d0 unitIvl).WF (libOf muU) muU := .real rfl (distOK_unif _) unitIvl_wf (by intro h; cases h) (by rw [unitIvl_reals]; simp [muU, unif])
  have hz : (Distr.nominal [("z", 1)]).WF (libOf muU) muU := .nominal (by simp) (by simp)
  have e1 : (PE.call "coin" []).eval pyHost2 ctx0 ns1 = .ok (.dist (.one coinD)) := by simp [PE.eval, PE.evalL, pyHost2, ns1, ns0, NS.bind, bind, Except.bind]
  simp only [source2, Stmt.SafeL, Stmt.Safe, and_true]
  refine ⟨?_, ?_⟩
  · rw [assignSafe_leaf rfl, e1]
    exact ⟨by simp [PE.NoEq, PE.NoEqL], by rintro d h; cases h; exact .one hcoin⟩
  · intro t vs h1 h2 k v h3 E h4
    rw [assignSafe_leaf rfl]
    refine ⟨by simp [PE.NoEq, PE.NoEqL], ?_⟩
    intro d h
    simp [PE.eval, PE.evalL, pyHost2, NS.case, ns1, ns0, NS.bind, bind, Except.bind] at h
    subst h
    split
    · exact .one hu
    · exact .one hz

/-- C46 non-vacuity: `enumerate` and `constrain`. -/
example : ∃ N p cmd, (∀ n, N ≤ n → compile ["coin", "pick"] n source2 = .ok p) ∧ p.run pyHost2 ctx0 ns0 = .ok cmd ∧
    cmd.sem muU start = Stmt.semL pyHost2 ctx0 muU ns1 source2 start := by
  have : IsProbabilityMeasure start := by unfold start; infer_instance
  refine C46_total (L := libOf muU) source2_good ns1_canonical ?_ (by simp) start source2_safe
  rintro ⟨cs, vs, as, t⟩ h1 h2 h3
  simp only [Decl.scalars, Decl.arrays] at h1 h2 h3
  subst h1 h2 h3
  simp [Prog.names, runConstants, runVariables, runArrays, bind, Except.bind, ns1]

end Sppl
