import Verif.Comp.FitLemmas
import Verif.Comp.Example

set_option linter.all false

/-!
# C46: programs, with hypotheses on the source alone
-/

namespace Sppl
open Classical MeasureTheory
open scoped ENNReal ProbabilityTheory

section
variable {D : List String} {n : ℕ} {H : PyHost} {c : Ctx} {L : Lib} {μ : Dist → Measure ℝ}

/-- The command of the compiled module is one that C30 covers. -/
theorem compile_safe {source : List Stmt} {p : Prog} {ρ₀ ρ : NS} {cmd : Cmd} (hcomp : compile D n source = .ok p) (hrun : p.run H c ρ₀ = .ok cmd)
    (hnames : p.names H c ρ₀ = .ok ρ) (hρ : ρ.Canonical) (hconst : ∀ q ∈ p.constants, q.2.IsConst H c ρ) (m : Measure Asg) [IsFiniteMeasure m]
    (hsafe : Stmt.SafeL H c L μ ρ source m) (hfit : Stmt.FitL H c μ ρ source m) : cmd.Safe c L μ m := by
  simp only [compile, bind, Except.bind] at hcomp
  split at hcomp; · cases hcomp
  rename_i r hr
  injection hcomp with hcomp; subst hcomp
  simp only [Prog.run, hnames, bind, Except.bind] at hrun
  split at hrun; · cases hrun
  rename_i as has
  exact fitRuns_body (module_fit (visit_ok n ["global"]) (visit_fit n ["global"]) hr ρ hρ (fun _ => hconst)) has hrun m hsafe hfit

/-- C46: the SPE of a program is the distribution that its source describes; the hypotheses are on the statements of the source.  Missing: programs that are not `Safe` and `Fit`. -/
theorem C46_source_partial {o : Opts} (hc : o.c.Correct) (hsimp : SimpOK o.c o.L μ o.simp) {source : List Stmt} {p : Prog} {ρ₀ ρ : NS} {cmd : Cmd} {s : Spe}
    (hcomp : compile D n source = .ok p) (hrun : p.run H o.c ρ₀ = .ok cmd) (hnames : p.names H o.c ρ₀ = .ok ρ) (hρ : ρ.Canonical)
    (hconst : ∀ q ∈ p.constants, q.2.IsConst H o.c ρ) (hsafe : Stmt.SafeL H o.c o.L μ ρ source start) (hfit : Stmt.FitL H o.c μ ρ source start)
    (h : cmd.interp o none = .ok (some s)) : s.den μ = Stmt.semL H o.c μ ρ source start ∧ s.WF o.c o.L μ := by
  have : IsProbabilityMeasure start := by unfold start; infer_instance
  exact C46_program_partial hc hsimp hcomp hrun hnames hρ hconst hsafe (compile_safe hcomp hrun hnames hρ hconst start hsafe hfit) h

end

/-! ## Non-vacuity -/

theorem strEv_fits_of {m : Measure Asg} {Y a : String} (h : ∀ᵐ ω ∂m, ∃ x, ω Y = some (.str x)) : (strEv Y a).Fits ctx0 m :=
  ⟨strEv_made _ _ _, by simp [strEv, Ev.All, NomId, Tr.isId], by simp [strEv, Ev.All, NomSome], by filter_upwards with ω; simp [strEv, Ev.Regular, Tr.Regular], by
    filter_upwards [h] with ω hω
    simpa [strEv, Ev.Typed, Tr.eval] using hω⟩

/-- After `Y ~= coin()`, `Y` is a string. -/
theorem coin_str {Y : String} (m : Measure Asg) [IsFiniteMeasure m] : ∀ᵐ ω ∂withIndep Y ((Source.one coinD).law muU Y) m, ∃ x, ω Y = some (.str x) := by
  have hm : MeasurableSet {ω : Asg | ∃ x, ω Y = some (.str x)} := by simpa using (measurableSet_strs (fun _ => True)).preimage (measurable_pi_apply Y)
  have hd : (coin Y).den muU = (Source.one coinD).law muU Y :=
    (source_ok (c := ctx0) (L := libOf muU) (.one (.nominal (by simp) (by simp))) (by norm_num [Source.call, coinD, Distr.call, mkNominal, mkNom, bind, Except.bind, coin])).1.den
  have hp := (coin_wf ctx0 (libOf muU) muU Y).prob
  have h0 : ∀ᵐ ω ∂(Source.one coinD).law muU Y, ∃ x, ω Y = some (.str x) := by
    rw [← hd]
    filter_upwards [(coin_typed Y "a").typed] with ω hω
    simpa [strEv, Ev.Typed, Tr.eval] using hω
  rw [hd] at hp
  rw [withIndep, ae_map_iff (measurable_addVar Y).aemeasurable hm]
  filter_upwards [Measure.quasiMeasurePreserving_snd.ae h0] with q hq
  simpa [addVar] using hq

theorem source0_fit : Stmt.FitL pyHost0 ctx0 muU ns1 source0 start := by
  have : IsProbabilityMeasure start := by unfold start; infer_instance
  have e1 : (PE.call "coin" []).eval pyHost0 ctx0 ns1 = .ok (.dist (.one coinD)) := by simp [PE.eval, PE.evalL, pyHost0, ns1, ns0, NS.bind, bind, Except.bind]
  have e2 : (PE.call "uniform" []).eval pyHost0 ctx0 ns1 = .ok (.dist (.one (.real .cont d0 unitIvl))) := by simp [PE.eval, PE.evalL, pyHost0, ns1, ns0, NS.bind, bind, Except.bind]
  have e3 : (PE.call "zed" []).eval pyHost0 ctx0 ns1 = .ok (.dist (.one (.nominal [("z", 1)]))) := by simp [PE.eval, PE.evalL, pyHost0, ns1, ns0, NS.bind, bind, Except.bind]
  have hstr : (Tr.id "Y").inList [.str "a"] = strEv "Y" "a" := by simp [Tr.inList, strEv, numVals, strVals]
  have et : (PE.cmp (.name "Y") [.eq] [.lit (.str "a")]).rewrite.eval pyHost0 ctx0 ns1 = .ok (.ev (strEv "Y" "a")) := by
    simp [PE.rewrite, rewriteCmp, PE.eval, PE.evalL, ns1, NS.bind, evalBin, evalShift, Obj.vals, bind, Except.bind, hstr]
  have hsem : Stmt.sem pyHost0 ctx0 muU ns1 (.assign (.name "Y") (.call "coin" [])) start = withIndep "Y" ((Source.one coinD).law muU "Y") start := by
    simp only [Stmt.sem]
    rw [assignSem_leaf rfl rfl, e1]
    simp [Target.var]
  simp only [source0, Stmt.FitL, Stmt.Fit, AssignFit, and_true, e1, e2, e3, hsem, elifTests, List.mem_singleton, forall_eq, reduceCtorEq, Except.ok.injEq, false_implies, implies_true, true_and]
  intro e he
  rw [et] at he
  cases he
  exact strEv_fits_of (coin_str start)

/-- C46 non-vacuity: `Y ~= coin()`; `if Y == 'a': X ~= uniform()`, `else: X ~= zed()`. -/
example : ∃ p cmd s, compile ["coin", "uniform", "zed"] 5 source0 = .ok p ∧ p.run pyHost0 ctx0 ns0 = .ok cmd ∧ cmd.interp opts0 none = .ok (some s) ∧
    s.den muU = Stmt.semL pyHost0 ctx0 muU ns1 source0 start :=
  ⟨_, _, _, source0_compile, compiled0_run, prog0_run, (C46_source_partial (o := opts0) ctx0_correct (simpOK_none _ _ _) source0_compile compiled0_run compiled0_names
    ns1_canonical (by simp [compiled0]) source0_safe source0_fit prog0_run).1⟩

end Sppl
