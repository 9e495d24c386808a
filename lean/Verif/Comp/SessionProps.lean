import Verif.Comp.GoesProps
import Verif.Interp.SessionProps
import Verif.Spe.InfoTotProps

set_option linter.all false

/-!
# C60: a session with the model of a source

The user conditions the model on one event after the other, and asks for probabilities and mutual information.
-/

namespace Sppl
open Classical MeasureTheory
open scoped ENNReal ProbabilityTheory

section
variable {c : Ctx} {L : Lib} {μ : Dist → Measure ℝ} {Γ : Scope}

theorem Ev.Fits.asksTyped {m : Measure Asg} {s : Spe} (hs : Rep c L μ m s) {e : Ev} (h : e.Fits c m) : AsksTyped c μ s e := by
  refine ⟨⟨h.made, h.nomId, ?_⟩, h.usable.symbols hs, by rw [hs.den]; exact h.regular, by rw [hs.den]; exact h.typed⟩
  rw [hs.atoms]
  exact h.nomId.mono (fun l t _ _ h => by obtain ⟨k, -, hk⟩ := h; simp at hk)

theorem Ev.Fits.cond {m : Measure Asg} {e : Ev} (h : e.Fits c m) (A : Set Asg) : e.Fits c (m[|A]) :=
  ⟨h.made, h.nomId, h.some, ProbabilityTheory.cond_absolutelyContinuous.ae_le h.regular, ProbabilityTheory.cond_absolutelyContinuous.ae_le h.typed⟩

theorem State.info (hc : c.Correct) {m : Measure Asg} {s : Spe} (hs : State c L μ Γ m s) (ht : Γ.tall = true) {A B : Ev} (hA : Γ.Plain A) (hB : Γ.Plain B) (fA : A.Fits c m) (fB : B.Fits c m) (n : ℕ) :
    s.mutualInfo c L n A B = .ok (mutualInformation m {ω | A.holds ω} {ω | B.holds ω} : ℝ) := by
  have key : ∀ {e : Ev}, e.All NomSome → e.All (fun l => ∀ t, l ≠ .nom t none) := fun h => h.mono (fun l t _ h t' => by rintro rfl; exact h)
  have := C39_total hc hs.rep.wf (hs.tall ht).wide (fA.asksTyped hs.rep) (fB.asksTyped hs.rep) (hA.simple.mono (fun _ _ _ => trivial)) (hB.simple.mono (fun _ _ _ => trivial))
    (lv_base (Finset.union_subset hA.base hB.base) hs.lv) (key fA.some) (key fB.some) n
  rw [hs.rep.den] at this
  exact this
end

section
variable {D : List String} {H : PyHost} {μ : Dist → Measure ℝ}

/-- **C60 (sessions).** A source that is `Good`, `Safe`, `Fit` and `Goes` is compiled, run and interpreted without an exception.  With `m` the distribution that the source describes,
conditioning the model on any number of events in turn returns, if together they have positive probability `m {all of es}`; `prob` of a further event is then its conditional probability, and
`mutual_information` of two events is the mutual information in the conditional distribution, if more than one variable was sampled.  Missing: other sources and events. -/
theorem C60_session_partial {o : Opts} (hc : o.c.Correct) (hsimp : o.simp = .ok ∨ o.simp = simplifySum o.hash) {source : List Stmt} {ρ₀ ρ : NS} {d : Decl} {Δ : Scope}
    (hgood : GoodProgram D H o.c ρ source d) (hρ : ρ.Canonical)
    (hnames : ∀ q : Prog, q.constants = d.constants → q.vars = d.scalars → q.arrays = d.arrays → q.names H o.c ρ₀ = .ok ρ) (hconst : ∀ q ∈ d.constants, q.2.IsConst H o.c ρ)
    (hsafe : Stmt.SafeL H o.c o.L μ ρ source start) (hfit : Stmt.FitL H o.c μ ρ source start) (hgo : Stmt.GoesL H o.c μ ρ source .start start Δ) (hv : Δ.vars ≠ ∅)
    {m : Measure Asg} (hm : m = Stmt.semL H o.c μ ρ source start) :
    ∃ N p cmd s, (∀ n, N ≤ n → compile D n source = .ok p) ∧ p.run H o.c ρ₀ = .ok cmd ∧ (∀ n, N ≤ n → cmd.interp { o with n := n } none = .ok (some s)) ∧
      ∀ es : List Ev, (∀ e ∈ es, Δ.Asks o.c e ∧ e.Fits o.c m) → m {ω | ∀ e ∈ es, e.holds ω} ≠ 0 →
        ∃ N s', (∀ n, N ≤ n → condAll o.c o.L o.hash n es s = .ok s') ∧ s'.den μ = m[|{ω | ∀ e ∈ es, e.holds ω}] ∧
          (∀ q : Ev, Δ.Asks o.c q → q.Fits o.c m → ∃ N, ∀ n, N ≤ n → s'.prob o.c o.L n q = .ok ((m[|{ω | ∀ e ∈ es, e.holds ω}]).real {ω | q.holds ω})) ∧
          (Δ.tall = true → ∀ A B : Ev, Δ.Plain A → Δ.Plain B → A.Fits o.c m → B.Fits o.c m → ∀ n,
            s'.mutualInfo o.c o.L n A B = .ok (mutualInformation (m[|{ω | ∀ e ∈ es, e.holds ω}]) {ω | A.holds ω} {ω | B.holds ω} : ℝ)) := by
  subst hm
  obtain ⟨N, p, cmd, s, h1, h2, h3, h4, h5, h6⟩ := source_model hc hsimp hgood hρ hnames hconst hsafe hfit hgo hv
  refine ⟨N, p, cmd, s, h1, h2, h3, fun es he h0 => ?_⟩
  obtain ⟨N', s', a1, a2⟩ := State.condAll (hash := o.hash) hc es h6 (fun e h => ⟨(he e h).1, (he e h).2.usable⟩) h0
  exact ⟨N', s', a1, a2.rep.den, fun q hq hf => State.asks hc a2 hq (hf.usable.cond _), fun ht A B hA hB fA fB n => State.info hc a2 ht hA hB (fA.cond _) (fB.cond _) n⟩
end

/-! ## Non-vacuity -/

theorem withIndep_old {X Y : String} (hXY : Y ≠ X) (ν m : Measure Asg) [SFinite ν] [SFinite m] (a : String) :
    withIndep X ν m {ω | (strEv Y a).holds ω} = m {ω | (strEv Y a).holds ω} * ν Set.univ := by
  have hm : MeasurableSet {ω : Asg | (strEv Y a).holds ω} := Ev.measurable _
  rw [withIndep, Measure.map_apply (measurable_addVar X) hm, ← Measure.prod_prod]
  congr 1
  ext q
  simp [strEv, Ev.holds, Ev.holdsB, Tr.eval, addVar, hXY]

theorem withIndep_new {Y : String} (ν m : Measure Asg) [SFinite ν] [SFinite m] (a : String) :
    withIndep Y ν m {ω | (strEv Y a).holds ω} = m Set.univ * ν {ω | (strEv Y a).holds ω} := by
  have hm : MeasurableSet {ω : Asg | (strEv Y a).holds ω} := Ev.measurable _
  rw [withIndep, Measure.map_apply (measurable_addVar Y) hm, ← Measure.prod_prod]
  congr 1
  ext q
  simp [strEv, Ev.holds, Ev.holdsB, Tr.eval, addVar]

/-- The hypotheses are met by `source0` (the other ones as for C60_total_partial), and the event `Y == 'a'`, which has positive probability. -/
example : GoodProgram ["coin", "uniform", "zed"] pyHost0 ctx0 ns1 source0 ⟨[], [("Y", .scalar), ("X", .scalar)], true⟩ ∧ ns1.Canonical ∧
    Stmt.SafeL pyHost0 ctx0 (libOf muU) muU ns1 source0 start ∧ Stmt.FitL pyHost0 ctx0 muU ns1 source0 start ∧ Stmt.GoesL pyHost0 ctx0 muU ns1 source0 .start start scope0 ∧
    scope0.vars ≠ ∅ ∧ scope0.tall = true ∧ scope0.Plain (strEv "Y" "a") ∧ scope0.Asks ctx0 (strEv "Y" "a") ∧ (strEv "Y" "a").Fits ctx0 (Stmt.semL pyHost0 ctx0 muU ns1 source0 start) ∧
    Stmt.semL pyHost0 ctx0 muU ns1 source0 start {ω | ∀ e ∈ [strEv "Y" "a"], e.holds ω} ≠ 0 := by
  have : IsProbabilityMeasure start := by unfold start; infer_instance
  have hcoin : coinD.WF (libOf muU) muU := .nominal (by simp) (by simp)
  have hu : (Distr.real .cont d0 unitIvl).WF (libOf muU) muU := .real rfl (distOK_unif _) unitIvl_wf (by intro h; cases h) (by rw [unitIvl_reals]; simp [muU, unif])
  have hz : (Distr.nominal [("z", 1)]).WF (libOf muU) muU := .nominal (by simp) (by simp)
  have hP : scope0.Plain (strEv "Y" "a") := ⟨.nom (by simp [Nom.WF]), by simp [strEv, Ev.symbols, Tr.symbols, scope0]⟩
  have e1 : (PE.call "coin" []).eval pyHost0 ctx0 ns1 = .ok (.dist (.one coinD)) := by simp [PE.eval, PE.evalL, pyHost0, ns1, ns0, NS.bind, bind, Except.bind]
  have e2 : (PE.call "uniform" []).eval pyHost0 ctx0 ns1 = .ok (.dist (.one (.real .cont d0 unitIvl))) := by simp [PE.eval, PE.evalL, pyHost0, ns1, ns0, NS.bind, bind, Except.bind]
  have e3 : (PE.call "zed" []).eval pyHost0 ctx0 ns1 = .ok (.dist (.one (.nominal [("z", 1)]))) := by simp [PE.eval, PE.evalL, pyHost0, ns1, ns0, NS.bind, bind, Except.bind]
  have hX : Target.var pyHost0 ctx0 ns1 (.name "X") = some "X" := rfl
  have hY : Target.var pyHost0 ctx0 ns1 (.name "Y") = some "Y" := rfl
  have i0 := source_finite (Source.WF.one hcoin) "Y"
  have i1 := source_finite (Source.WF.one hu) "X"
  have i2 := source_finite (Source.WF.one hz) "X"
  refine ⟨source0_good, ns1_canonical, source0_safe, source0_fit, source0_goes, by simp [scope0], rfl, hP, .inl ⟨hP, .inl rfl⟩, strEv_fits_of ?_, ?_⟩
  · show ∀ᵐ ω ∂(Stmt.semL pyHost0 ctx0 muU ns1 source0 start), ∃ x, ω "Y" = some (.str x)
    simp only [source0, Stmt.semL, Stmt.sem, assignSem_leaf (e := .call "coin" []) rfl rfl, assignSem_leaf (e := .call "uniform" []) rfl rfl, assignSem_leaf (e := .call "zed" []) rfl rfl, e1, e2, e3, hX, hY, choice]
    refine (ae_add_measure_iff).2 ⟨Measure.ae_smul_measure (withIndep_str (by simp) ?_) _, Measure.ae_smul_measure (withIndep_str (by simp) ?_) _⟩
    all_goals exact (ProbabilityTheory.cond_absolutelyContinuous).ae_le (coin_str start)
  · have hs : {ω : Asg | ∀ e ∈ [strEv "Y" "a"], e.holds ω} = {ω | (strEv "Y" "a").holds ω} := by simp
    rw [hs]
    simp only [source0, Stmt.semL, Stmt.sem, assignSem_leaf (e := .call "coin" []) rfl rfl, assignSem_leaf (e := .call "uniform" []) rfl rfl, assignSem_leaf (e := .call "zed" []) rfl rfl, e1, e2, e3, hX, hY, choice,
      Measure.add_apply, Measure.smul_apply, withIndep_old (show "Y" ≠ "X" by decide)]
    have hE : (PE.cmp (.name "Y") [.eq] [.lit (.str "a")]).sat pyHost0 ctx0 ns1 = {ω | (strEv "Y" "a").holds ω} := by
      ext ω
      simp [PE.sat, PE.Means, strEv, Ev.holds, Ev.holdsB, Tr.eval, ns1, NS.bind, PE.eval, PE.evalL, ChainHolds, CmpOp.Holds, Obj.at, bind, Except.bind]
    have hm : MeasurableSet {ω : Asg | (strEv "Y" "a").holds ω} := Ev.measurable _
    have hd : (coin "Y").den muU = (Source.one coinD).law muU "Y" :=
      (source_ok (c := ctx0) (L := libOf muU) (.one (.nominal (by simp) (by simp))) (by norm_num [Source.call, coinD, Distr.call, mkNominal, mkNom, bind, Except.bind, coin])).1.den
    have h0 : withIndep "Y" ((Source.one coinD).law muU "Y") start {ω | (strEv "Y" "a").holds ω} ≠ 0 := by
      rw [withIndep_new, ← hd]
      have h1 := coin_facts
      have h2 := h1.2.1.prob ctx0_correct h1.1 h1.2.2.2.2.2.2.1
      intro h
      rw [measure_univ, one_mul] at h
      simp [Measure.real, h] at h2
    have h1 : (Source.one (.real .cont d0 unitIvl)).law muU "X" Set.univ ≠ 0 := by
      have hd' : (leafX "X").den muU = (Source.one (.real .cont d0 unitIvl)).law muU "X" :=
        (source_ok (c := ctx0) (L := libOf muU) (.one hu) (by simp [Source.call, Distr.call, mkReal, leafX]; rfl)).1.den
      have := (leafX_wf ctx0 "X").prob
      rw [← hd', measure_univ]; simp
    have f0 : IsFiniteMeasure (withIndep "Y" ((Source.one coinD).law muU "Y") start) := withIndep_finite
    rw [hE]
    intro h
    have h2 := (add_eq_zero.1 h).1
    rw [smul_eq_mul, ProbabilityTheory.cond_apply hm, Set.inter_self, ENNReal.inv_mul_cancel h0 (measure_ne_top _ _), one_mul] at h2
    exact (mul_ne_zero h0 h1) h2

end Sppl
