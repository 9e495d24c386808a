import Verif.Comp.TotalLemmas
import Verif.Comp.Example

set_option linter.all false

/-!
# C46: programs that compile and run
-/

namespace Sppl
open Classical MeasureTheory
open scoped ENNReal ProbabilityTheory

section
variable {D : List String} {H : PyHost} {c : Ctx} {L : Lib} {μ : Dist → Measure ℝ}

theorem varNames_eq (st : VS) (d : Decl) (h : st.vars = d.vars) : st.varNames = d.scalars ∧ st.arrays = d.arrays := by
  unfold VS.varNames VS.arrays Decl.scalars Decl.arrays
  rw [h]
  generalize d.vars = l
  induction l with
  | nil => simp
  | cons p l ih =>
    obtain ⟨x, k⟩ := p
    cases k <;> simp_all

/-- C46: a program that introduces every variable before it uses it, once, or once in every branch of an `if`, whose constants come before its distributions, and whose
expressions have values of the right kinds, is compiled (with any bound on the recursion that is large enough), and its module runs.  The module has the constants, the
variables and the arrays of the program. -/
theorem C46_runs {source : List Stmt} {ρ₀ ρ : NS} {d : Decl} (h : GoodProgram D H c ρ source d) :
    ∃ N p, (∀ n, N ≤ n → compile D n source = .ok p) ∧ p.constants = d.constants ∧ p.vars = d.scalars ∧ p.arrays = d.arrays ∧
      (p.names H c ρ₀ = .ok ρ → ∃ cmd, p.run H c ρ₀ = .ok cmd) := by
  have hc : Claim D H c ⟨false, false, true⟩ (fun ρ' => ρ' = ρ) ⟨[], [], false⟩ (.chain source) d := good_claim h
  obtain ⟨N, ts, st, hr, hv, he, -⟩ := hc ["global"] ⟨false, [], [], []⟩ ⟨by simp, by simp, by simp⟩ ⟨rfl, rfl, rfl, by simp⟩
  refine ⟨N, ⟨st.constants, st.varNames, st.arrays, [.seq ts]⟩, ?_, hr.constants, (varNames_eq st d hr.vars).1, (varNames_eq st d hr.vars).2, ?_⟩
  · intro n hn
    have a := hv n hn
    simp only at a
    simp [compile, visitModule, a, bind, Except.bind, sequenceBlock]
  · intro hn
    obtain ⟨ms, hms⟩ := he ρ rfl
    exact ⟨.seq ms, by
      unfold Prog.run
      rw [hn]
      simp [Tgt.runL, Tgt.run, hms, allCmds_ok, oneCmd, bind, Except.bind]⟩

/-- C46: such a program is compiled and run to a command that does what the source says. -/
theorem C46_total {source : List Stmt} {ρ₀ ρ : NS} {d : Decl} (h : GoodProgram D H c ρ source d) (hρ : ρ.Canonical)
    (hnames : ∀ q : Prog, q.constants = d.constants → q.vars = d.scalars → q.arrays = d.arrays → q.names H c ρ₀ = .ok ρ)
    (hconst : ∀ q ∈ d.constants, q.2.IsConst H c ρ) (m : Measure Asg) [IsFiniteMeasure m] (hsafe : Stmt.SafeL H c L μ ρ source m) :
    ∃ N p cmd, (∀ n, N ≤ n → compile D n source = .ok p) ∧ p.run H c ρ₀ = .ok cmd ∧ cmd.sem μ m = Stmt.semL H c μ ρ source m := by
  obtain ⟨N, p, h1, h2, h3, h4, h5⟩ := C46_runs (ρ₀ := ρ₀) h
  have hn := hnames p h2 h3 h4
  obtain ⟨cmd, hcmd⟩ := h5 hn
  exact ⟨N, p, cmd, h1, hcmd, C46_command_partial (h1 N le_rfl) hcmd hn hρ (by rw [h2]; exact hconst) m hsafe⟩

end

/-! ## Examples -/

theorem coin_eval (ρ : NS) (h : ρ "coin" = none) : (PE.call "coin" []).eval pyHost0 ctx0 ρ = .ok (.dist (.one coinD)) := by simp [PE.eval, PE.evalL, pyHost0, h, bind, Except.bind]

/-- `Y ~= coin()`; `if Y == 'a': X ~= uniform()`, `else: X ~= zed()`. -/
theorem source0_good : GoodProgram ["coin", "uniform", "zed"] pyHost0 ctx0 ns1 source0 ⟨[], [("Y", .scalar), ("X", .scalar)], true⟩ := by
  have e2 : (PE.call "uniform" []).eval pyHost0 ctx0 ns1 = .ok (.dist (.one (.real .cont d0 unitIvl))) := by simp [PE.eval, PE.evalL, pyHost0, ns1, ns0, NS.bind, bind, Except.bind]
  have e3 : (PE.call "zed" []).eval pyHost0 ctx0 ns1 = .ok (.dist (.one (.nominal [("z", 1)]))) := by simp [PE.eval, PE.evalL, pyHost0, ns1, ns0, NS.bind, bind, Except.bind]
  have vX : (PE.name "X").IsVar pyHost0 ctx0 ns1 := ⟨"X", by simp [PE.eval, ns1, NS.bind]⟩
  have vY : (PE.name "Y").IsVar pyHost0 ctx0 ns1 := ⟨"Y", by simp [PE.eval, ns1, NS.bind]⟩
  refine .cons (d1 := ⟨[], [("Y", .scalar)], true⟩) (.sample (by simp) (by simp) (.fresh rfl rfl rfl) (by simp [PE.NoEq, PE.NoEqL]) ?_) (.cons (.ifs (d1 := ⟨[], [("Y", .scalar), ("X", .scalar)], true⟩) ?_ (by simp) ?_ ?_) .nil)
  · rintro ρ rfl; exact ⟨vY, _, coin_eval _ (by simp [ns1, ns0, NS.bind])⟩
  · rintro ρ rfl
    exact ⟨(Tr.id "Y").inList [.str "a"], by simp [PE.rewrite, rewriteCmp, PE.eval, PE.evalL, ns1, NS.bind, evalBin, evalShift, Obj.vals, bind, Except.bind]⟩
  · refine .body (by simp) (by simp) (.cons (.sample (by simp) (by simp) (.fresh rfl rfl (by simp [List.lookup])) (by simp [PE.NoEq, PE.NoEqL]) ?_) .nil)
    rintro ρ rfl; exact ⟨vX, _, e2⟩
  · refine .restElse (by simp) (.body (by simp) (by simp) (.cons (.sample (by simp) (by simp) (.again rfl rfl (k := .scalar) (by simp [List.lookup])) (by simp [PE.NoEq, PE.NoEqL]) ?_) .nil))
    rintro ρ rfl; exact ⟨vX, _, e3⟩

/-- C46 non-vacuity: the hypotheses of `C46_total`. -/
example : ∃ N p cmd, (∀ n, N ≤ n → compile ["coin", "uniform", "zed"] n source0 = .ok p) ∧ p.run pyHost0 ctx0 ns0 = .ok cmd ∧
    cmd.sem muU start = Stmt.semL pyHost0 ctx0 muU ns1 source0 start := by
  have : IsProbabilityMeasure start := by unfold start; infer_instance
  refine C46_total (L := libOf muU) source0_good ns1_canonical ?_ (by simp) start source0_safe
  rintro ⟨cs, vs, as, t⟩ h1 h2 h3
  simp only [Decl.scalars, Decl.arrays] at h1 h2 h3
  subst h1 h2 h3
  simp [Prog.names, runConstants, runVariables, runArrays, bind, Except.bind, ns1]

/-- `n = 2`; `A = array(n)`; `for i in range(0, n): A[i] ~= coin()`. -/
theorem source1_good : GoodProgram ["coin"] pyHost0 ctx0 ((ns0.bind "n" (.int 2)).bind "A" (idArray "A" 2)) source1
    ⟨[(.name "n", .lit (.int 2))], [("A", .array (.name "n"))], true⟩ := by
  refine .cons (.const (by simp) (by simp) (by simp [PE.names]) rfl rfl (by simp)) (.cons (.array (by simp [PE.names, PE.namesL]) rfl rfl)
    (.cons (.forr ?_ (.body (by simp) (by simp) (.cons (.sample (by simp) (by simp) (.elem (n := .name "n") (by simp [List.lookup])) (by simp [PE.NoEq, PE.NoEqL]) ?_) .nil))) .nil))
  · rintro ρ rfl; exact ⟨⟨0, by simp [PE.eval]⟩, 2, by simp [PE.eval, NS.bind]⟩
  · rintro ρ' ⟨ρ, rfl, a, b, h1, h2, i, h3, h4, rfl⟩
    simp [PE.eval, NS.bind] at h1 h2
    subst h1 h2
    obtain ⟨k, rfl⟩ := Int.eq_ofNat_of_zero_le h3
    refine ⟨⟨s!"A[{k}]", ?_⟩, _, coin_eval _ (by simp [ns0, NS.bind])⟩
    have hk : k < 2 := by omega
    simp [Target.expr, PE.eval, NS.bind, idArray, hk, bind, Except.bind]
    rfl

/-- C46 non-vacuity: a constant, an array and a loop. -/
example : ∃ N p, (∀ n, N ≤ n → compile ["coin"] n source1 = .ok p) ∧ ∃ cmd, p.run pyHost0 ctx0 ns0 = .ok cmd := by
  obtain ⟨N, p, h1, h2, h3, h4, h5⟩ := C46_runs (ρ₀ := ns0) source1_good
  refine ⟨N, p, h1, h5 ?_⟩
  obtain ⟨cs, vs, as, t⟩ := p
  simp only [Decl.scalars, Decl.arrays] at h2 h3 h4
  subst h2 h3 h4
  simp [Prog.names, runConstants, runVariables, runArrays, PE.eval, NS.bind, bind, Except.bind]

/-- C46: a branch of an `if` that only has `pass` writes nothing, so that the tests and the commands are mixed up and the module raises: with `if t: pass`, `else: condition(u)`,
whatever the tests `t` and `u`. -/
theorem C46_pass_wrong (D : List String) (H : PyHost) (c : Ctx) (ρ₀ : NS) (t u : PE) :
    ∃ p, (∀ n, 2 ≤ n → compile D n [.ifs t [.pass] [.condition u]] = .ok p) ∧ ∃ e, p.run H c ρ₀ = .error e := by
  refine ⟨⟨[], [], [], [.seq [.ifelse [.test t.rewrite, .test PE.yes.rewrite, .condition u.rewrite]]]⟩, ?_, ?_⟩
  · intro n hn
    obtain ⟨n, rfl⟩ := Nat.exists_eq_add_of_le' hn
    simp [compile, visitModule, visitItems, visit, unrollIf, visitBranches, bind, Except.bind, sequenceBlock, VS.varNames, VS.arrays]
  · simp only [Prog.run, Prog.names, runConstants, runVariables, runArrays, bind, Except.bind, Tgt.runL, Tgt.run]
    cases t.rewrite.eval H c ρ₀ with
    | error e => exact ⟨e, rfl⟩
    | ok v =>
      simp only
      cases PE.yes.rewrite.eval H c ρ₀ with
      | error e => exact ⟨e, rfl⟩
      | ok w =>
        simp only
        cases u.rewrite.eval H c ρ₀ with
        | error e => exact ⟨e, rfl⟩
        | ok x =>
          simp only
          cases x <;> simp [mkIfElse, splitArgs, bind, Except.bind]

end Sppl
