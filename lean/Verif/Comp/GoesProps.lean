import Verif.Comp.GoesLemmas
import Verif.Comp.FitProps
import Verif.Comp.TotalProps
import Verif.Interp.RunProps

set_option linter.all false

/-!
# C60: programs of a class that is defined on the source compile, run, and answer with the meaning of the source
-/

namespace Sppl
open Classical MeasureTheory
open scoped ENNReal ProbabilityTheory

section
variable {D : List String} {n : ℕ} {H : PyHost} {c : Ctx} {L : Lib} {μ : Dist → Measure ℝ}

/-- The command of the compiled module is one that C52 covers. -/
theorem compile_goes {source : List Stmt} {p : Prog} {ρ₀ ρ : NS} {cmd : Cmd} (hcomp : compile D n source = .ok p) (hrun : p.run H c ρ₀ = .ok cmd)
    (hnames : p.names H c ρ₀ = .ok ρ) (hρ : ρ.Canonical) (hconst : ∀ q ∈ p.constants, q.2.IsConst H c ρ) (m : Measure Asg) [IsFiniteMeasure m]
    (hsafe : Stmt.SafeL H c L μ ρ source m) {Γ Δ : Scope} (hgo : Stmt.GoesL H c μ ρ source Γ m Δ) : Runs c μ Γ m cmd Δ := by
  simp only [compile, bind, Except.bind] at hcomp
  split at hcomp; · cases hcomp
  rename_i r hr
  injection hcomp with hcomp; subst hcomp
  simp only [Prog.run, hnames, bind, Except.bind] at hrun
  split at hrun; · cases hrun
  rename_i as has
  exact goesRuns_body (module_goes (visit_ok n ["global"]) (visit_goes n ["global"]) hr ρ hρ (fun _ => hconst)) has hrun m hsafe Γ Δ hgo

/-- The model of the source. -/
theorem source_model {o : Opts} (hc : o.c.Correct) (hsimp : o.simp = .ok ∨ o.simp = simplifySum o.hash) {source : List Stmt} {ρ₀ ρ : NS} {d : Decl} {Δ : Scope}
    (hgood : GoodProgram D H o.c ρ source d) (hρ : ρ.Canonical)
    (hnames : ∀ q : Prog, q.constants = d.constants → q.vars = d.scalars → q.arrays = d.arrays → q.names H o.c ρ₀ = .ok ρ) (hconst : ∀ q ∈ d.constants, q.2.IsConst H o.c ρ)
    (hsafe : Stmt.SafeL H o.c o.L μ ρ source start) (hfit : Stmt.FitL H o.c μ ρ source start) (hgo : Stmt.GoesL H o.c μ ρ source .start start Δ) (hv : Δ.vars ≠ ∅) :
    ∃ N p cmd s, (∀ n, N ≤ n → compile D n source = .ok p) ∧ p.run H o.c ρ₀ = .ok cmd ∧ (∀ n, N ≤ n → cmd.interp { o with n := n } none = .ok (some s)) ∧
      s.symbols = Δ.vars ∧ s.den μ = Stmt.semL H o.c μ ρ source start ∧ State o.c o.L μ Δ (Stmt.semL H o.c μ ρ source start) s := by
  have : IsProbabilityMeasure start := by unfold start; infer_instance
  obtain ⟨N, p, h1, h2, h3, h4, h5⟩ := C46_runs (ρ₀ := ρ₀) hgood
  have hn := hnames p h2 h3 h4
  obtain ⟨cmd, hcmd⟩ := h5 hn
  have hcon : ∀ q ∈ p.constants, q.2.IsConst H o.c ρ := by rw [h2]; exact hconst
  have hcs := compile_safe (h1 N le_rfl) hcmd hn hρ hcon start hsafe hfit
  have hcr := compile_goes (h1 N le_rfl) hcmd hn hρ hcon start hsafe hgo
  have hsem : cmd.sem μ start = Stmt.semL H o.c μ ρ source start := C46_command_partial (h1 N le_rfl) hcmd hn hρ hcon start hsafe
  obtain ⟨M, s', k1, k2⟩ := runs_state hc hsimp hcs hcr
  rw [hsem] at k2
  cases s' with
  | none => exact (hv k2.2).elim
  | some s =>
    exact ⟨max N M, p, cmd, s, fun n hn => h1 n (le_trans (le_max_left _ _) hn), hcmd, fun n hn => k1 n (le_trans (le_max_right _ _) hn), State.vars k2, (State.rep k2).den, k2⟩

/-- **C60 (no exceptions).** A source that is `Good`, `Safe`, `Fit` and `Goes` is compiled, the module runs, its command is interpreted, all without an exception; the model has the variables
of the scope and denotes the distribution that the source describes; `prob` of an event about these variables is its probability there, and `condition` on an event of
positive probability is the conditional distribution.  All hypotheses are on the statements of the source and what Python makes of the expressions in them.
Missing: other sources. -/
theorem C60_total_partial {o : Opts} (hc : o.c.Correct) (hsimp : o.simp = .ok ∨ o.simp = simplifySum o.hash) {source : List Stmt} {ρ₀ ρ : NS} {d : Decl} {Δ : Scope}
    (hgood : GoodProgram D H o.c ρ source d) (hρ : ρ.Canonical)
    (hnames : ∀ q : Prog, q.constants = d.constants → q.vars = d.scalars → q.arrays = d.arrays → q.names H o.c ρ₀ = .ok ρ) (hconst : ∀ q ∈ d.constants, q.2.IsConst H o.c ρ)
    (hsafe : Stmt.SafeL H o.c o.L μ ρ source start) (hfit : Stmt.FitL H o.c μ ρ source start) (hgo : Stmt.GoesL H o.c μ ρ source .start start Δ) (hv : Δ.vars ≠ ∅) :
    ∃ N p cmd s, (∀ n, N ≤ n → compile D n source = .ok p) ∧ p.run H o.c ρ₀ = .ok cmd ∧ (∀ n, N ≤ n → cmd.interp { o with n := n } none = .ok (some s)) ∧
      s.symbols = Δ.vars ∧ s.den μ = Stmt.semL H o.c μ ρ source start ∧
      ∀ e : Ev, Δ.Plain e → e.Fits o.c (Stmt.semL H o.c μ ρ source start) → (Δ.tall = true ∨ e.Single) →
        (∀ n, s.prob o.c o.L n e = .ok ((Stmt.semL H o.c μ ρ source start).real {ω | e.holds ω})) ∧
        (Stmt.semL H o.c μ ρ source start {ω | e.holds ω} ≠ 0 →
          ∃ M s', (∀ n, M ≤ n → s.condition o.c o.L o.hash n e = .ok s') ∧ s'.den μ = (Stmt.semL H o.c μ ρ source start)[|{ω | e.holds ω}]) := by
  obtain ⟨N, p, cmd, s, h1, h2, h3, h4, h5, h6⟩ := source_model hc hsimp hgood hρ hnames hconst hsafe hfit hgo hv
  refine ⟨N, p, cmd, s, h1, h2, h3, h4, h5, fun e he hf ht => ⟨fun n => State.prob hc h6 he hf.usable ht n, fun h0 => ?_⟩⟩
  obtain ⟨M, s', a1, a2⟩ := State.condition (hash := o.hash) hc h6 (.inl ⟨he, ht⟩) hf.usable h0
  exact ⟨M, s', a1, a2.rep.den⟩

/-- **C60 (no exceptions, queries about derived variables).** Likewise for conjunctions of comparisons of variables that were derived by increasing and decreasing expressions, if
polynomials of degree one are solved; then also `prob` needs a large enough recursion limit. -/
theorem C60_derived_partial {o : Opts} (hc : o.c.Correct) (hl : o.c.Linear) (hsimp : o.simp = .ok ∨ o.simp = simplifySum o.hash) {source : List Stmt} {ρ₀ ρ : NS} {d : Decl} {Δ : Scope}
    (hgood : GoodProgram D H o.c ρ source d) (hρ : ρ.Canonical)
    (hnames : ∀ q : Prog, q.constants = d.constants → q.vars = d.scalars → q.arrays = d.arrays → q.names H o.c ρ₀ = .ok ρ) (hconst : ∀ q ∈ d.constants, q.2.IsConst H o.c ρ)
    (hsafe : Stmt.SafeL H o.c o.L μ ρ source start) (hfit : Stmt.FitL H o.c μ ρ source start) (hgo : Stmt.GoesL H o.c μ ρ source .start start Δ) (hv : Δ.vars ≠ ∅) :
    ∃ N p cmd s, (∀ n, N ≤ n → compile D n source = .ok p) ∧ p.run H o.c ρ₀ = .ok cmd ∧ (∀ n, N ≤ n → cmd.interp { o with n := n } none = .ok (some s)) ∧
      s.symbols = Δ.vars ∧ s.den μ = Stmt.semL H o.c μ ρ source start ∧
      ∀ e : Ev, Δ.Bent e → e.Fits o.c (Stmt.semL H o.c μ ρ source start) →
        (∃ M, ∀ n, M ≤ n → s.prob o.c o.L n e = .ok ((Stmt.semL H o.c μ ρ source start).real {ω | e.holds ω})) ∧
        (Stmt.semL H o.c μ ρ source start {ω | e.holds ω} ≠ 0 →
          ∃ M s', (∀ n, M ≤ n → s.condition o.c o.L o.hash n e = .ok s') ∧ s'.den μ = (Stmt.semL H o.c μ ρ source start)[|{ω | e.holds ω}]) := by
  obtain ⟨N, p, cmd, s, h1, h2, h3, h4, h5, h6⟩ := source_model hc hsimp hgood hρ hnames hconst hsafe hfit hgo hv
  refine ⟨N, p, cmd, s, h1, h2, h3, h4, h5, fun e he hf => ⟨State.asks hc h6 (.inr ⟨hl, he⟩) hf.usable, fun h0 => ?_⟩⟩
  obtain ⟨M, s', a1, a2⟩ := State.condition (hash := o.hash) hc h6 (.inr ⟨hl, he⟩) hf.usable h0
  exact ⟨M, s', a1, a2.rep.den⟩

end

/-! ## Non-vacuity -/

/-- The variables of `source0` at its end. -/
def scope0 : Scope := ⟨{"X", "Y"}, {"X", "Y"}, {"X", "Y"}, ∅, true, ∅⟩

theorem source0_goes : Stmt.GoesL pyHost0 ctx0 muU ns1 source0 .start start scope0 := by
  have e1 : (PE.call "coin" []).eval pyHost0 ctx0 ns1 = .ok (.dist (.one coinD)) := by simp [PE.eval, PE.evalL, pyHost0, ns1, ns0, NS.bind, bind, Except.bind]
  have e2 : (PE.call "uniform" []).eval pyHost0 ctx0 ns1 = .ok (.dist (.one (.real .cont d0 unitIvl))) := by simp [PE.eval, PE.evalL, pyHost0, ns1, ns0, NS.bind, bind, Except.bind]
  have e3 : (PE.call "zed" []).eval pyHost0 ctx0 ns1 = .ok (.dist (.one (.nominal [("z", 1)]))) := by simp [PE.eval, PE.evalL, pyHost0, ns1, ns0, NS.bind, bind, Except.bind]
  have hstr : (Tr.id "Y").inList [.str "a"] = strEv "Y" "a" := by simp [Tr.inList, strEv, numVals, strVals]
  have et : (PE.cmp (.name "Y") [.eq] [.lit (.str "a")]).rewrite.eval pyHost0 ctx0 ns1 = .ok (.ev (strEv "Y" "a")) := by
    simp [PE.rewrite, rewriteCmp, PE.eval, PE.evalL, ns1, NS.bind, evalBin, evalShift, Obj.vals, bind, Except.bind, hstr]
  have hX : Target.var pyHost0 ctx0 ns1 (.name "X") = some "X" := rfl
  have hY : Target.var pyHost0 ctx0 ns1 (.name "Y") = some "Y" := rfl
  simp only [source0, Stmt.GoesL, Stmt.Goes]
  refine ⟨Scope.start.add "Y" (.one coinD), ?_, scope0, ⟨.inl ⟨?_, .inr ⟨by simp [elifTests], ?_⟩⟩, rfl, fun _ => ⟨scope0, ?_, rfl⟩, fun _ => ⟨scope0, ?_, rfl⟩⟩, rfl⟩
  · rw [assignGoes_leaf rfl rfl, e1, hY]
    exact ⟨by simp [Scope.start], by norm_num [Source.Callable, coinD, Distr.Callable], .refl _⟩
  · intro u hu e he
    simp only [elifTests, List.mem_singleton] at hu
    subst hu
    rw [et] at he
    cases he
    exact ⟨.nom (by simp [Nom.WF]), by simp [strEv, Ev.symbols, Tr.symbols, Scope.add]⟩
  · intro e he
    rw [et] at he
    cases he
    exact .str
  · rw [assignGoes_leaf rfl rfl, e2, hX]
    refine ⟨by simp [Scope.start, Scope.add], by simp [Source.Callable, Distr.Callable], ?_⟩
    constructor <;> simp [Scope.add, Scope.start, Source.Every, Distr.NotDisc, coinD, scope0]
  · rw [assignGoes_leaf rfl rfl, e3, hX]
    refine ⟨by simp [Scope.start, Scope.add], by norm_num [Source.Callable, Distr.Callable], ?_⟩
    constructor <;> simp [Scope.add, Scope.start, Source.Every, Distr.NotDisc, coinD, scope0]

/-- Sampling another variable does not change what kind of value a variable has. -/
theorem withIndep_str {X Y : String} (hXY : Y ≠ X) {ν m : Measure Asg} [IsFiniteMeasure m] [IsFiniteMeasure ν] (h : ∀ᵐ ω ∂m, ∃ x, ω Y = some (.str x)) :
    ∀ᵐ ω ∂withIndep X ν m, ∃ x, ω Y = some (.str x) := by
  have hm : MeasurableSet {ω : Asg | ∃ x, ω Y = some (.str x)} := by simpa using (measurableSet_strs (fun _ => True)).preimage (measurable_pi_apply Y)
  rw [withIndep, ae_map_iff (measurable_addVar X).aemeasurable hm]
  filter_upwards [Measure.quasiMeasurePreserving_fst.ae h] with q hq
  simpa [addVar, hXY] using hq

/-- C60 non-vacuity: `source0` meets the hypotheses, and `Y == 'a'` can be asked for. -/
example : ∃ N p cmd s, (∀ n, N ≤ n → compile ["coin", "uniform", "zed"] n source0 = .ok p) ∧ p.run pyHost0 ctx0 ns0 = .ok cmd ∧
    (∀ n, N ≤ n → cmd.interp { opts0 with n := n } none = .ok (some s)) ∧ s.symbols = {"X", "Y"} ∧ s.den muU = Stmt.semL pyHost0 ctx0 muU ns1 source0 start ∧
    ∀ n, s.prob ctx0 (libOf muU) n (strEv "Y" "a") = .ok ((Stmt.semL pyHost0 ctx0 muU ns1 source0 start).real {ω | (strEv "Y" "a").holds ω}) := by
  have : IsProbabilityMeasure start := by unfold start; infer_instance
  have hcoin : coinD.WF (libOf muU) muU := .nominal (by simp) (by simp)
  have hu : (Distr.real .cont d0 unitIvl).WF (libOf muU) muU := .real rfl (distOK_unif _) unitIvl_wf (by intro h; cases h) (by rw [unitIvl_reals]; simp [muU, unif])
  have hz : (Distr.nominal [("z", 1)]).WF (libOf muU) muU := .nominal (by simp) (by simp)
  obtain ⟨N, p, cmd, s, h1, h2, h3, h4, h5, h6⟩ := C60_total_partial (o := opts0) (D := ["coin", "uniform", "zed"]) (ρ₀ := ns0) ctx0_correct (.inl rfl) source0_good ns1_canonical (by
    rintro ⟨cs, vs, as, t⟩ h1 h2 h3
    simp only [Decl.scalars, Decl.arrays] at h1 h2 h3
    subst h1 h2 h3
    simp [Prog.names, runConstants, runVariables, runArrays, bind, Except.bind, ns1]) (by simp) source0_safe source0_fit source0_goes (by simp [scope0])
  refine ⟨N, p, cmd, s, h1, h2, h3, h4, h5, (h6 _ ⟨.nom (by simp [Nom.WF]), by simp [strEv, Ev.symbols, Tr.symbols, scope0]⟩ (strEv_fits_of ?_) (.inl rfl)).1⟩
  have e1 : (PE.call "coin" []).eval pyHost0 ctx0 ns1 = .ok (.dist (.one coinD)) := by simp [PE.eval, PE.evalL, pyHost0, ns1, ns0, NS.bind, bind, Except.bind]
  have e2 : (PE.call "uniform" []).eval pyHost0 ctx0 ns1 = .ok (.dist (.one (.real .cont d0 unitIvl))) := by simp [PE.eval, PE.evalL, pyHost0, ns1, ns0, NS.bind, bind, Except.bind]
  have e3 : (PE.call "zed" []).eval pyHost0 ctx0 ns1 = .ok (.dist (.one (.nominal [("z", 1)]))) := by simp [PE.eval, PE.evalL, pyHost0, ns1, ns0, NS.bind, bind, Except.bind]
  have hX : Target.var pyHost0 ctx0 ns1 (.name "X") = some "X" := rfl
  have hY : Target.var pyHost0 ctx0 ns1 (.name "Y") = some "Y" := rfl
  show ∀ᵐ ω ∂(Stmt.semL pyHost0 ctx0 muU ns1 source0 start), ∃ x, ω "Y" = some (.str x)
  simp only [source0, Stmt.semL, Stmt.sem, assignSem_leaf (e := .call "coin" []) rfl rfl, assignSem_leaf (e := .call "uniform" []) rfl rfl, assignSem_leaf (e := .call "zed" []) rfl rfl, e1, e2, e3, hX, hY, choice]
  have i1 := source_finite (Source.WF.one hu) "X"
  have i2 := source_finite (Source.WF.one hz) "X"
  refine (ae_add_measure_iff).2 ⟨Measure.ae_smul_measure (withIndep_str (by simp) ?_) _, Measure.ae_smul_measure (withIndep_str (by simp) ?_) _⟩
  all_goals exact (ProbabilityTheory.cond_absolutelyContinuous).ae_le (coin_str start)

end Sppl
