import Verif.Comp.QuerySpec
import Verif.Comp.FitProps

set_option linter.all false

/-!
# C60: what is asked of a compiled program is answered by the meaning of its source
-/

namespace Sppl
open Classical MeasureTheory
open scoped ENNReal ProbabilityTheory

section
variable {D : List String} {H : PyHost} {o : Opts} {μ : Dist → Measure ℝ} {ρ₀ ρ : NS} {source : List Stmt} {s : Spe}

theorem ModelOf.rep (hc : o.c.Correct) (hsimp : SimpOK o.c o.L μ o.simp) (h : ModelOf D H o μ ρ₀ ρ source s) : Rep o.c o.L μ (Stmt.semL H o.c μ ρ source start) s := by
  obtain ⟨n, p, cmd, h1, h2, h3, h4, h6⟩ := h.model
  have : IsProbabilityMeasure start := by unfold start; infer_instance
  have h5 := compile_safe h1 h2 h3 h.canonical h4 start h.safe h.fit
  rw [← C46_command_partial h1 h2 h3 h.canonical h4 start h.safe]
  exact interp_ok hc hsimp cmd start h5 none (some s) rfl h6

/-- C60: the answer to `model.prob(e)` is the probability of `e` in the distribution that the statements of the source describe. -/
theorem C60_query_partial (hc : o.c.Correct) (hsimp : SimpOK o.c o.L μ o.simp) (h : ModelOf D H o μ ρ₀ ρ source s) {e : Ev}
    (he : e.Fits o.c (Stmt.semL H o.c μ ρ source start)) {n : ℕ} {q : ℝ} (hq : s.prob o.c o.L n e = .ok q) :
    q = (Stmt.semL H o.c μ ρ source start).real {ω | e.holds ω} := Usable.prob hc (h.rep hc hsimp) he.usable hq

/-- C60: the answer to `model.condition(e).prob(f)` is the conditional probability of `f` given `e`. -/
theorem C60_posterior_partial (hc : o.c.Correct) (hsimp : SimpOK o.c o.L μ o.simp) (h : ModelOf D H o μ ρ₀ ρ source s) {e f : Ev}
    (he : e.Fits o.c (Stmt.semL H o.c μ ρ source start)) (hf : f.Fits o.c ((Stmt.semL H o.c μ ρ source start)[|{ω | e.holds ω}])) {n k : ℕ} {s' : Spe} {q : ℝ}
    (hs' : s.condition o.c o.L o.hash n e = .ok s') (hq : s'.prob o.c o.L k f = .ok q) :
    q = (Stmt.semL H o.c μ ρ source start).real ({ω | e.holds ω} ∩ {ω | f.holds ω}) / (Stmt.semL H o.c μ ρ source start).real {ω | e.holds ω} := by
  have k := Usable.condition hc (h.rep hc hsimp) he.usable hs'
  rw [Usable.prob hc k.1 hf.usable hq, measureReal_def, ProbabilityTheory.cond_apply (show MeasurableSet {ω | e.holds ω} from Ev.measurable_set e), ENNReal.toReal_mul,
    ENNReal.toReal_inv, measureReal_def, measureReal_def, div_eq_inv_mul]

/-- C60: programs with the same meaning answer alike. -/
theorem C60_same_meaning_partial (hc : o.c.Correct) (hsimp : SimpOK o.c o.L μ o.simp) {D' : List String} {H' : PyHost} {ρ₀' ρ' : NS} {source' : List Stmt} {s' : Spe}
    (h : ModelOf D H o μ ρ₀ ρ source s) (h' : ModelOf D' H' o μ ρ₀' ρ' source' s') (hsem : Stmt.semL H o.c μ ρ source start = Stmt.semL H' o.c μ ρ' source' start) {e : Ev}
    (he : e.Fits o.c (Stmt.semL H o.c μ ρ source start)) {n n' : ℕ} {q q' : ℝ} (hq : s.prob o.c o.L n e = .ok q) (hq' : s'.prob o.c o.L n' e = .ok q') : q = q' := by
  rw [C60_query_partial hc hsimp h he hq, C60_query_partial hc hsimp h' (hsem ▸ he) hq', hsem]

theorem semL_append_stmt (l1 l2 : List Stmt) (m : Measure Asg) : Stmt.semL H o.c μ ρ (l1 ++ l2) m = Stmt.semL H o.c μ ρ l2 (Stmt.semL H o.c μ ρ l1 m) := by
  induction l1 generalizing m with
  | nil => simp [Stmt.semL]
  | cons a l1 ih => simp only [List.cons_append, Stmt.semL]; exact ih _

/-- C60: a `condition` at the end of a program and the method `condition` of the model without it give the same distribution, if the event is that of the test. -/
theorem C60_condition_last_partial (hc : o.c.Correct) (hsimp : SimpOK o.c o.L μ o.simp) {t : PE} {e : Ev} {s₁ s₂ : Spe} (h : ModelOf D H o μ ρ₀ ρ source s)
    (h₁ : ModelOf D H o μ ρ₀ ρ (source ++ [.condition t]) s₁) (he : e.Fits o.c (Stmt.semL H o.c μ ρ source start)) (het : ∀ ω, e.holds ω ↔ ω ∈ t.sat H o.c ρ) {n : ℕ}
    (hs₂ : s.condition o.c o.L o.hash n e = .ok s₂) : s₁.den μ = s₂.den μ := by
  have k := (Usable.condition hc (h.rep hc hsimp) he.usable hs₂).1
  rw [k.den, (h₁.rep hc hsimp).den, semL_append_stmt]
  simp only [Stmt.semL, Stmt.sem]
  congr 1
  ext ω; exact (het ω).symm

end

/-! ## The order of independent variables -/

theorem withIndep_comm {X Y : String} (hXY : X ≠ Y) (m ν ν' : Measure Asg) [SFinite m] [SFinite ν] [SFinite ν'] :
    withIndep Y ν' (withIndep X ν m) = withIndep X ν (withIndep Y ν' m) := by
  have key : ∀ (X Y : String) (ν ν' : Measure Asg) [SFinite ν] [SFinite ν'],
      withIndep Y ν' (withIndep X ν m) = (m.prod (ν.prod ν')).map (fun q => addVar Y (addVar X (q.1, q.2.1), q.2.2)) := by
    intro X Y ν ν' _ _
    unfold withIndep
    have e : ((m.prod ν).map (addVar X)).prod ν' = ((m.prod ν).prod ν').map (Prod.map (addVar X) id) := by
      rw [← Measure.map_prod_map _ _ (measurable_addVar X) measurable_id, Measure.map_id]
    rw [e, ← Measure.prodAssoc_prod, Measure.map_map (measurable_addVar Y) ((measurable_addVar X).prodMap measurable_id), Measure.map_map ?_ MeasurableEquiv.prodAssoc.measurable]
    · rfl
    · exact (measurable_addVar Y).comp (((measurable_addVar X).comp (measurable_fst.prodMk (measurable_fst.comp measurable_snd))).prodMk (measurable_snd.comp measurable_snd))
  rw [key, key]
  have e : m.prod (ν'.prod ν) = (m.prod (ν.prod ν')).map (Prod.map id Prod.swap) := by
    rw [← Measure.map_prod_map _ _ measurable_id measurable_swap, Measure.map_id, Measure.prod_swap]
  rw [e, Measure.map_map ?_ (measurable_id.prodMap measurable_swap)]
  · congr 1
    funext q
    funext z
    simp only [addVar, Function.comp, Prod.map, id, Prod.swap]
    by_cases h1 : z = X
    · subst h1; simp [hXY]
    · by_cases h2 : z = Y
      · subst h2; simp [h1]
      · simp [h1, h2]
  · exact (measurable_addVar X).comp (((measurable_addVar Y).comp (measurable_fst.prodMk (measurable_fst.comp measurable_snd))).prodMk (measurable_snd.comp measurable_snd))

/-- The set does not depend on the variable. -/
def Ignores (X : String) (E : Set Asg) : Prop := ∀ ω ω' : Asg, (∀ z, z ≠ X → ω z = ω' z) → (ω ∈ E ↔ ω' ∈ E)

theorem withIndep_cond {X : String} (m ν : Measure Asg) [IsFiniteMeasure m] [IsProbabilityMeasure ν] {E : Set Asg} (hE : MeasurableSet E) (hX : Ignores X E) :
    withIndep X ν (m[|E]) = (withIndep X ν m)[|E] := by
  have hpre : addVar X ⁻¹' E = E ×ˢ Set.univ := by
    ext q
    simp only [Set.mem_preimage, Set.mem_prod, Set.mem_univ, and_true]
    exact hX _ _ (fun z hz => by simp [addVar, hz])
  have hm : withIndep X ν m E = m E := by
    rw [withIndep, Measure.map_apply (measurable_addVar X) hE, hpre, Measure.prod_prod, measure_univ, mul_one]
  have hr : (m.restrict E).prod ν = (m.prod ν).restrict (E ×ˢ Set.univ) := by
    rw [← Measure.prod_restrict, Measure.restrict_univ]
  unfold ProbabilityTheory.cond
  rw [hm]
  unfold withIndep
  rw [Measure.prod_smul_left, Measure.map_smul, hr, ← hpre, Measure.restrict_map (measurable_addVar X) hE]

section
variable {D : List String} {H : PyHost} {o : Opts} {μ : Dist → Measure ℝ} {ρ₀ ρ : NS} {s s' : Spe}

theorem safeL_append {L : Lib} {l1 l2 : List Stmt} {m : Measure Asg} : Stmt.SafeL H o.c L μ ρ (l1 ++ l2) m ↔
    Stmt.SafeL H o.c L μ ρ l1 m ∧ Stmt.SafeL H o.c L μ ρ l2 (Stmt.semL H o.c μ ρ l1 m) := by
  induction l1 generalizing m with
  | nil => simp [Stmt.SafeL, Stmt.semL]
  | cons a l1 ih => simp only [List.cons_append, Stmt.SafeL, Stmt.semL, ih, and_assoc]

theorem fitL_append {l1 l2 : List Stmt} {m : Measure Asg} : Stmt.FitL H o.c μ ρ (l1 ++ l2) m ↔ Stmt.FitL H o.c μ ρ l1 m ∧ Stmt.FitL H o.c μ ρ l2 (Stmt.semL H o.c μ ρ l1 m) := by
  induction l1 generalizing m with
  | nil => simp [Stmt.FitL, Stmt.semL]
  | cons a l1 ih => simp only [List.cons_append, Stmt.FitL, Stmt.semL, ih, and_assoc]

theorem sem_sample {target : Target} {e : PE} {X : String} {d : Source} (h1 : e.isIf = false) (h2 : e.isArray = false) (hX : target.var H o.c ρ = some X)
    (hd : e.eval H o.c ρ = .ok (.dist d)) (m : Measure Asg) : Stmt.sem H o.c μ ρ (.assign target e) m = withIndep X (d.law μ X) m := by
  simp only [Stmt.sem]
  rw [assignSem_leaf h1 h2, hX, hd]

/-- C60: two neighbouring samplings of different variables can be written in either order, anywhere at the top of a program: both programs answer every question alike. -/
theorem C60_order_partial (hc : o.c.Correct) (hsimp : SimpOK o.c o.L μ o.simp) {l1 l2 : List Stmt} {a b : Target} {e f : PE} {X Y : String} {d d' : Source}
    (h : ModelOf D H o μ ρ₀ ρ (l1 ++ .assign a e :: .assign b f :: l2) s) (h' : ModelOf D H o μ ρ₀ ρ (l1 ++ .assign b f :: .assign a e :: l2) s')
    (he : e.isIf = false ∧ e.isArray = false) (hf : f.isIf = false ∧ f.isArray = false) (hX : a.var H o.c ρ = some X) (hY : b.var H o.c ρ = some Y) (hXY : X ≠ Y)
    (hd : e.eval H o.c ρ = .ok (.dist d)) (hd' : f.eval H o.c ρ = .ok (.dist d')) :
    s.den μ = s'.den μ ∧ ∀ {g : Ev}, g.Fits o.c (s.den μ) → ∀ {n n' : ℕ} {q q' : ℝ}, s.prob o.c o.L n g = .ok q → s'.prob o.c o.L n' g = .ok q' → q = q' := by
  have : IsProbabilityMeasure start := by unfold start; infer_instance
  have hs := safeL_append.1 h.safe
  have hfin := Stmt.semL_finite l1 ρ start hs.1
  simp only [Stmt.SafeL, Stmt.Safe] at hs
  have w1 := (assignSafe_leaf he.1 _).1 hs.2.1
  have w2 := (assignSafe_leaf hf.1 _).1 hs.2.2.1
  have := source_finite (w1.2 d hd) X
  have := source_finite (w2.2 d' hd') Y
  have hsem : Stmt.semL H o.c μ ρ (l1 ++ .assign a e :: .assign b f :: l2) start = Stmt.semL H o.c μ ρ (l1 ++ .assign b f :: .assign a e :: l2) start := by
    rw [semL_append_stmt, semL_append_stmt]
    simp only [Stmt.semL, sem_sample he.1 he.2 hX hd, sem_sample hf.1 hf.2 hY hd']
    rw [withIndep_comm hXY]
  have r := h.rep hc hsimp
  have r' := h'.rep hc hsimp
  refine ⟨by rw [r.den, r'.den, hsem], fun {g} hg {n n' q q'} hq hq' => ?_⟩
  rw [r.den] at hg
  exact C60_same_meaning_partial hc hsimp h h' hsem hg hq hq'

/-- C60: an observation can be made before or after the sampling of a variable that it does not mention: both programs answer every question alike. -/
theorem C60_observe_early_partial (hc : o.c.Correct) (hsimp : SimpOK o.c o.L μ o.simp) {l1 l2 : List Stmt} {a : Target} {e t : PE} {X : String} {d : Source}
    (h : ModelOf D H o μ ρ₀ ρ (l1 ++ .assign a e :: .condition t :: l2) s) (h' : ModelOf D H o μ ρ₀ ρ (l1 ++ .condition t :: .assign a e :: l2) s')
    (he : e.isIf = false ∧ e.isArray = false) (hX : a.var H o.c ρ = some X) (hd : e.eval H o.c ρ = .ok (.dist d)) (ht : MeasurableSet (t.sat H o.c ρ))
    (hXt : Ignores X (t.sat H o.c ρ)) (hprob : IsProbabilityMeasure (d.law μ X)) :
    s.den μ = s'.den μ ∧ ∀ {g : Ev}, g.Fits o.c (s.den μ) → ∀ {n n' : ℕ} {q q' : ℝ}, s.prob o.c o.L n g = .ok q → s'.prob o.c o.L n' g = .ok q' → q = q' := by
  have : IsProbabilityMeasure start := by unfold start; infer_instance
  have hs := safeL_append.1 h.safe
  have hfin := Stmt.semL_finite l1 ρ start hs.1
  have hsem : Stmt.semL H o.c μ ρ (l1 ++ .assign a e :: .condition t :: l2) start = Stmt.semL H o.c μ ρ (l1 ++ .condition t :: .assign a e :: l2) start := by
    rw [semL_append_stmt, semL_append_stmt]
    simp only [Stmt.semL, sem_sample he.1 he.2 hX hd]
    simp only [Stmt.sem]
    rw [withIndep_cond _ _ ht hXt]
  have r := h.rep hc hsimp
  have r' := h'.rep hc hsimp
  refine ⟨by rw [r.den, r'.den, hsem], fun {g} hg {n n' q q'} hq hq' => ?_⟩
  rw [r.den] at hg
  exact C60_same_meaning_partial hc hsimp h h' hsem hg hq hq'

end

/-! ## Non-vacuity -/

/-- `x ~= f()`; `y ~= g()`. -/
def source6 (x f y g : String) : List Stmt := [.assign (.name x) (.call f []), .assign (.name y) (.call g [])]

/-- The names of two variables. -/
def ns2 (x y : String) : NS := (ns0.bind x (.tr (.id x))).bind y (.tr (.id y))

theorem pair_model {x y f g : String} (hxy : x ≠ y) (hf : f ∈ ["coin", "uniform", "zed"]) (hg : g ∈ ["coin", "uniform", "zed"]) {d d' : Distr}
    (cf : (PE.call f []).eval pyHost0 ctx0 (ns2 x y) = .ok (.dist (.one d))) (cg : (PE.call g []).eval pyHost0 ctx0 (ns2 x y) = .ok (.dist (.one d')))
    (wf : d.WF (libOf muU) muU) (wg : d'.WF (libOf muU) muU) {s1 s2 s : Spe} (h1 : d.call (libOf muU) x = .ok s1) (h2 : d'.call (libOf muU) y = .ok s2)
    (hp : mkProd [s1, s2] = .ok s) : ModelOf ["coin", "uniform", "zed"] pyHost0 opts0 muU ns0 (ns2 x y) (source6 x f y g) s := by
  have hf' : f ≠ "array" := by rintro rfl; simp at hf
  have hg' : g ≠ "array" := by rintro rfl; simp at hg
  have v1 : visit ["coin", "uniform", "zed"] 2 ["global"] (.assign (.name x) (.call f [])) ⟨false, [], [], []⟩ =
      .ok ([.sample (.name x) (.call f [])], ⟨false, [], [(x, .scalar)], [f]⟩) := visit_dist hf hf' (by simp [declare])
  have v2 : visit ["coin", "uniform", "zed"] 2 ["global"] (.assign (.name y) (.call g [])) ⟨false, [], [(x, .scalar)], [f]⟩ =
      .ok ([.sample (.name y) (.call g [])], ⟨false, [], [(x, .scalar), (y, .scalar)], [f, g]⟩) := visit_dist hg hg' (by
    have : (y == x) = false := by simpa using Ne.symm hxy
    simp [declare, List.lookup, this])
  have hcomp : compile ["coin", "uniform", "zed"] 2 (source6 x f y g) =
      .ok ⟨[], [x, y], [], [.seq [.sample (.name x) (.call f []), .sample (.name y) (.call g [])]]⟩ := by
    simp only [compile, source6, visitModule, visitItems, v1, v2, bind, Except.bind]
    simp [sequenceBlock, VS.varNames, VS.arrays]
  have hnames : Prog.names pyHost0 ctx0 ⟨[], [x, y], [], [.seq [.sample (.name x) (.call f []), .sample (.name y) (.call g [])]]⟩ ns0 = .ok (ns2 x y) := by
    simp [Prog.names, runConstants, runVariables, runArrays, bind, Except.bind, ns2]
  have hrun : Prog.run pyHost0 ctx0 ns0 ⟨[], [x, y], [], [.seq [.sample (.name x) (.call f []), .sample (.name y) (.call g [])]]⟩ =
      .ok (.seq [.sample x (.one d), .sample y (.one d')]) := by
    have ex : (PE.name x).eval pyHost0 ctx0 (ns2 x y) = .ok (.tr (.id x)) := by simp [PE.eval, ns2, NS.bind, hxy]
    have ey : (PE.name y).eval pyHost0 ctx0 (ns2 x y) = .ok (.tr (.id y)) := by simp [PE.eval, ns2, NS.bind]
    unfold Prog.run
    rw [hnames]
    simp only [Tgt.runL, Tgt.run, ex, ey, cf, cg, bind, Except.bind, Obj.var, allCmds, oneCmd]
  refine ⟨?_, ?_, C46_names (p := ⟨[], [x, y], [], [.seq [.sample (.name x) (.call f []), .sample (.name y) (.call g [])]]⟩) (ρ₀ := ns0) (by intro x o h; cases h) (by simp) hnames,
    _, _, _, hcomp, hrun, hnames, by simp, ?_⟩
  · simp only [source6, Stmt.SafeL, Stmt.Safe, and_true]
    rw [assignSafe_leaf rfl, assignSafe_leaf rfl]
    exact ⟨⟨by simp [PE.NoEq, PE.NoEqL], by intro d₁ h; erw [cf] at h; cases h; exact .one wf⟩, ⟨by simp [PE.NoEq, PE.NoEqL], by intro d₁ h; erw [cg] at h; cases h; exact .one wg⟩⟩
  · simp only [source6, Stmt.FitL, Stmt.Fit, AssignFit, and_true]
    exact ⟨fun t h => (by erw [cf] at h; cases h), fun t h => (by erw [cg] at h; cases h)⟩
  · rw [Cmd.interp]
    simp only [Cmd.interpL, List.foldlM_cons, List.foldlM_nil, Cmd.interp, Source.call, show opts0.L = libOf muU from rfl, h1, h2, hp, bind, Except.bind, pure, Except.pure]

/-- C60 non-vacuity: `Y ~= coin()`; `X ~= uniform()` and `X ~= uniform()`; `Y ~= coin()` give models that denote the same. -/
example : ∃ s s', ModelOf ["coin", "uniform", "zed"] pyHost0 opts0 muU ns0 (ns2 "Y" "X") (source6 "Y" "coin" "X" "uniform") s ∧
    ModelOf ["coin", "uniform", "zed"] pyHost0 opts0 muU ns0 (ns2 "Y" "X") (source6 "X" "uniform" "Y" "coin") s' ∧ s ≠ s' ∧ s.den muU = s'.den muU := by
  have hcoin : coinD.WF (libOf muU) muU := .nominal (by simp) (by simp)
  have hu : (Distr.real .cont d0 unitIvl).WF (libOf muU) muU := .real rfl (distOK_unif _) unitIvl_wf (by intro h; cases h) (by rw [unitIvl_reals]; simp [muU, unif])
  have d1 : coinD.call (libOf muU) "Y" = .ok (coin "Y") := by norm_num [coinD, Distr.call, mkNominal, mkNom, bind, Except.bind, coin]
  have d2 : (Distr.real .cont d0 unitIvl).call (libOf muU) "X" = .ok (leafX "X") := by simp [Distr.call, mkReal, leafX]; rfl
  have e : ns2 "Y" "X" = ns2 "X" "Y" := by
    funext z
    simp only [ns2, NS.bind]
    split <;> split <;> simp_all
  have p1 : mkProd [coin "Y", leafX "X"] = .ok (.prod [coin "Y", leafX "X"]) := by simp [mkProd, Spe.prodChildren, leafX, coin, areDisjoint, Spe.symbolsL, Spe.symbols]
  have p2 : mkProd [leafX "X", coin "Y"] = .ok (.prod [leafX "X", coin "Y"]) := by simp [mkProd, Spe.prodChildren, leafX, coin, areDisjoint, Spe.symbolsL, Spe.symbols]
  have c1 : (PE.call "coin" []).eval pyHost0 ctx0 (ns2 "Y" "X") = .ok (.dist (.one coinD)) := by simp [PE.eval, PE.evalL, pyHost0, ns2, ns0, NS.bind, bind, Except.bind]
  have c2 : (PE.call "uniform" []).eval pyHost0 ctx0 (ns2 "Y" "X") = .ok (.dist (.one (.real .cont d0 unitIvl))) := by simp [PE.eval, PE.evalL, pyHost0, ns2, ns0, NS.bind, bind, Except.bind]
  have m1 := pair_model (x := "Y") (y := "X") (by decide) (by simp) (by simp) c1 c2 hcoin hu d1 d2 p1
  have m2 := pair_model (x := "X") (y := "Y") (by decide) (by simp) (by simp) (e ▸ c2) (e ▸ c1) hu hcoin d2 d1 p2
  rw [← e] at m2
  refine ⟨_, _, m1, m2, by simp [coin, leafX], ?_⟩
  exact (C60_order_partial (o := opts0) ctx0_correct (simpOK_none _ _ _) (l1 := []) (l2 := []) m1 m2 ⟨rfl, rfl⟩ ⟨rfl, rfl⟩ (X := "Y") (Y := "X") (by simp [Target.var, PE.eval, ns2, NS.bind, Obj.var, opts0])
    (by simp [Target.var, ns2, NS.bind, Obj.var, opts0]) (by decide) c1 c2).1

/-- `Y ~= coin()`. -/
def source7 : List Stmt := [.assign (.name "Y") (.call "coin" [])]

/-- The name `Y`. -/
def nsY : NS := ns0.bind "Y" (.tr (.id "Y"))

/-- `Y == 'a'`. -/
noncomputable def isA : PE := .cmp (.name "Y") [.eq] [.lit (.str "a")]

theorem coin_call : (PE.call "coin" []).eval pyHost0 ctx0 nsY = .ok (.dist (.one coinD)) := by simp [PE.eval, PE.evalL, pyHost0, nsY, ns0, NS.bind, bind, Except.bind]

theorem source7_sem : Stmt.semL pyHost0 ctx0 muU nsY source7 start = withIndep "Y" ((Source.one coinD).law muU "Y") start := by
  simp only [source7, Stmt.semL]
  exact sem_sample (o := opts0) rfl rfl (X := "Y") (d := .one coinD) (by simp [Target.var, PE.eval, nsY, NS.bind, Obj.var]) coin_call start

theorem coin_rep : Rep ctx0 (libOf muU) muU (Stmt.semL pyHost0 ctx0 muU nsY source7 start) (coin "Y") := by
  have hcoin : coinD.WF (libOf muU) muU := .nominal (by simp) (by simp)
  have d1 : (Source.one coinD).call (libOf muU) "Y" = .ok (coin "Y") := by norm_num [Source.call, coinD, Distr.call, mkNominal, mkNom, bind, Except.bind, coin]
  have := sample_ok (o := opts0) (X := "Y") (μ := muU) (.one hcoin) start none (some (coin "Y")) rfl (by
      simp only [Cmd.interp, show opts0.L = libOf muU from rfl, d1, bind, Except.bind])
  rw [source7_sem]
  exact this

theorem strEv_fits : (strEv "Y" "a").Fits ctx0 (Stmt.semL pyHost0 ctx0 muU nsY source7 start) := by
  rw [← coin_rep.den]
  exact ⟨strEv_made _ _ _, by simp [strEv, Ev.All, NomId, Tr.isId], by simp [strEv, Ev.All, NomSome], by filter_upwards with ω; simp [strEv, Ev.Regular, Tr.Regular], (coin_typed "Y" "a").typed⟩

theorem source7_model : ModelOf ["coin"] pyHost0 opts0 muU ns0 nsY source7 (coin "Y") := by
  have hcoin : coinD.WF (libOf muU) muU := .nominal (by simp) (by simp)
  have d1 : coinD.call (libOf muU) "Y" = .ok (coin "Y") := by norm_num [coinD, Distr.call, mkNominal, mkNom, bind, Except.bind, coin]
  have v1 : visit ["coin"] 1 ["global"] (.assign (.name "Y") (.call "coin" [])) ⟨false, [], [], []⟩ =
      .ok ([.sample (.name "Y") (.call "coin" [])], ⟨false, [], [("Y", .scalar)], ["coin"]⟩) := visit_dist (by simp) (by simp) (by simp [declare])
  have hcomp : compile ["coin"] 1 source7 = .ok ⟨[], ["Y"], [], [.seq [.sample (.name "Y") (.call "coin" [])]]⟩ := by
    simp only [compile, source7, visitModule, visitItems, v1, bind, Except.bind]
    simp [sequenceBlock, VS.varNames, VS.arrays]
  have hnames : Prog.names pyHost0 ctx0 ⟨[], ["Y"], [], [.seq [.sample (.name "Y") (.call "coin" [])]]⟩ ns0 = .ok nsY := by
    simp [Prog.names, runConstants, runVariables, runArrays, bind, Except.bind, nsY]
  have hrun : Prog.run pyHost0 ctx0 ns0 ⟨[], ["Y"], [], [.seq [.sample (.name "Y") (.call "coin" [])]]⟩ = .ok (.seq [.sample "Y" (.one coinD)]) := by
    have ex : (PE.name "Y").eval pyHost0 ctx0 nsY = .ok (.tr (.id "Y")) := by simp [PE.eval, nsY, NS.bind]
    unfold Prog.run
    rw [hnames]
    simp only [Tgt.runL, Tgt.run, ex, coin_call, bind, Except.bind, Obj.var, allCmds, oneCmd]
  refine ⟨?_, ?_, C46_names (p := ⟨[], ["Y"], [], [.seq [.sample (.name "Y") (.call "coin" [])]]⟩) (ρ₀ := ns0) (by intro x o h; cases h) (by simp) hnames,
    _, _, _, hcomp, hrun, hnames, by simp, ?_⟩
  · simp only [source7, Stmt.SafeL, Stmt.Safe, and_true]
    rw [assignSafe_leaf rfl]
    exact ⟨by simp [PE.NoEq, PE.NoEqL], by intro d₁ h; erw [coin_call] at h; cases h; exact .one hcoin⟩
  · simp only [source7, Stmt.FitL, Stmt.Fit, AssignFit, and_true]
    intro t h; erw [coin_call] at h; cases h
  · rw [Cmd.interp]
    simp only [Cmd.interpL, List.foldlM_cons, List.foldlM_nil, Cmd.interp, Source.call, show opts0.L = libOf muU from rfl, d1, bind, Except.bind, pure, Except.pure]

/-- `Y ~= coin()`; `condition(Y == 'a')`. -/
theorem source7_cond_model : ModelOf ["coin"] pyHost0 opts0 muU ns0 nsY (source7 ++ [.condition isA]) (sure "Y") := by
  have hcoin : coinD.WF (libOf muU) muU := .nominal (by simp) (by simp)
  have d1 : coinD.call (libOf muU) "Y" = .ok (coin "Y") := by norm_num [coinD, Distr.call, mkNominal, mkNom, bind, Except.bind, coin]
  have hrw : isA.rewrite = .bin .lshift (.name "Y") (.set [.lit (.str "a")]) := by simp [isA, PE.rewrite, rewriteCmp]
  have v1 : visit ["coin"] 1 ["global"] (.assign (.name "Y") (.call "coin" [])) ⟨false, [], [], []⟩ =
      .ok ([.sample (.name "Y") (.call "coin" [])], ⟨false, [], [("Y", .scalar)], ["coin"]⟩) := visit_dist (by simp) (by simp) (by simp [declare])
  have v2 : visit ["coin"] 1 ["global"] (.condition isA) ⟨false, [], [("Y", .scalar)], ["coin"]⟩ =
      .ok ([.condition (.bin .lshift (.name "Y") (.set [.lit (.str "a")]))], ⟨false, [], [("Y", .scalar)], ["coin"]⟩) := by
    simp [visit, hrw]
  have hcomp : compile ["coin"] 1 (source7 ++ [.condition isA]) =
      .ok ⟨[], ["Y"], [], [.seq [.sample (.name "Y") (.call "coin" []), .condition (.bin .lshift (.name "Y") (.set [.lit (.str "a")]))]]⟩ := by
    simp only [compile, source7, List.cons_append, List.nil_append, visitModule, visitItems, v1, v2, bind, Except.bind]
    simp [sequenceBlock, VS.varNames, VS.arrays]
  have hnames : Prog.names pyHost0 ctx0 ⟨[], ["Y"], [], [.seq [.sample (.name "Y") (.call "coin" []), .condition (.bin .lshift (.name "Y") (.set [.lit (.str "a")]))]]⟩ ns0 = .ok nsY := by
    simp [Prog.names, runConstants, runVariables, runArrays, bind, Except.bind, nsY]
  have ex : (PE.name "Y").eval pyHost0 ctx0 nsY = .ok (.tr (.id "Y")) := by simp [PE.eval, nsY, NS.bind]
  have hstr : (Tr.id "Y").inList [.str "a"] = strEv "Y" "a" := by simp [Tr.inList, strEv, numVals, strVals]
  have et : (PE.bin .lshift (.name "Y") (.set [.lit (.str "a")])).eval pyHost0 ctx0 nsY = .ok (.ev (strEv "Y" "a")) := by
    simp [PE.eval, PE.evalL, nsY, NS.bind, evalBin, evalShift, Obj.vals, bind, Except.bind, hstr]
  have hrun : Prog.run pyHost0 ctx0 ns0 ⟨[], ["Y"], [], [.seq [.sample (.name "Y") (.call "coin" []), .condition (.bin .lshift (.name "Y") (.set [.lit (.str "a")]))]]⟩ =
      .ok (.seq [.sample "Y" (.one coinD), .condition (strEv "Y" "a")]) := by
    unfold Prog.run
    rw [hnames]
    simp only [Tgt.runL, Tgt.run, ex, et, coin_call, bind, Except.bind, Obj.var, allCmds, oneCmd]
  refine ⟨?_, ?_, source7_model.canonical, _, _, _, hcomp, hrun, hnames, by simp, ?_⟩
  · refine safeL_append.2 ⟨source7_model.safe, ?_⟩
    simp only [Stmt.SafeL, Stmt.Safe, and_true]
    exact ⟨.left (t := .id "Y") (by simp [PE.eval, nsY, NS.bind]) (by simp [PE.eval]), Filter.Eventually.of_forall fun ω => .cmp (by simp)⟩
  · refine fitL_append.2 ⟨source7_model.fit, ?_⟩
    simp only [Stmt.FitL, Stmt.Fit, and_true]
    intro e he
    rw [hrw] at he
    erw [et] at he
    cases he
    exact strEv_fits
  · have c1 : (coin "Y").condition ctx0 (libOf muU) (fun _ => 0) 5 (strEv "Y" "a") = .ok (sure "Y") := by
      unfold Spe.condition
      rw [if_pos (show Spe.isLeaf _ = true from rfl)]
      exact coin_cond _ 4 "Y"
    rw [Cmd.interp]
    simp only [Cmd.interpL, List.foldlM_cons, List.foldlM_nil, Cmd.interp, Source.call, needSpe, show opts0.L = libOf muU from rfl, show opts0.c = ctx0 from rfl,
      show opts0.hash = (fun _ => 0) from rfl, show opts0.n = 5 from rfl, d1, c1, bind, Except.bind, pure, Except.pure]

/-- C60 non-vacuity: the coin is asked how probable `a` is. -/
example : (Stmt.semL pyHost0 ctx0 muU nsY source7 start).real {ω | (strEv "Y" "a").holds ω} = 1/2 := by
  obtain ⟨-, -, -, -, -, -, h, -⟩ := coin_facts
  exact (C60_query_partial (o := opts0) ctx0_correct (simpOK_none _ _ _) source7_model strEv_fits h).symm

/-- C60 non-vacuity: `condition` in the program and `condition` on its model. -/
example : ∃ s₁ s₂, ModelOf ["coin"] pyHost0 opts0 muU ns0 nsY (source7 ++ [.condition isA]) s₁ ∧ (coin "Y").condition ctx0 (libOf muU) (fun _ => 0) 5 (strEv "Y" "a") = .ok s₂ ∧
    s₁.den muU = s₂.den muU := by
  have c1 : (coin "Y").condition ctx0 (libOf muU) (fun _ => 0) 5 (strEv "Y" "a") = .ok (sure "Y") := by
    unfold Spe.condition
    rw [if_pos (show Spe.isLeaf _ = true from rfl)]
    exact coin_cond _ 4 "Y"
  refine ⟨_, _, source7_cond_model, c1, C60_condition_last_partial (o := opts0) ctx0_correct (simpOK_none _ _ _) source7_model source7_cond_model strEv_fits ?_ c1⟩
  intro ω
  show _ ↔ isA.Means pyHost0 ctx0 nsY ω
  rw [isA, means_cmp (v := .tr (.id "Y")) (w := .str "a") (by simp [PE.eval, nsY, NS.bind]) (by simp [PE.eval])]
  simp [strEv, Ev.holds, Ev.holdsB, CmpOp.Holds, Obj.at, Tr.eval]

/-- The names `Y` and `Z`. -/
def nsYZ : NS := nsY.bind "Z" (.tr (.id "Z"))

theorem late_early : ModelOf ["coin"] pyHost0 opts0 muU ns0 nsYZ ([.assign (.name "Y") (.call "coin" [])] ++ .assign (.name "Z") (.call "coin" []) :: .condition isA :: []) (.prod [sure "Y", coin "Z"]) ∧
    ModelOf ["coin"] pyHost0 opts0 muU ns0 nsYZ ([.assign (.name "Y") (.call "coin" [])] ++ .condition isA :: .assign (.name "Z") (.call "coin" []) :: []) (.prod [sure "Y", coin "Z"]) := by
  have hcoin : coinD.WF (libOf muU) muU := .nominal (by simp) (by simp)
  have d1 : ∀ Y, coinD.call (libOf muU) Y = .ok (coin Y) := by intro Y; norm_num [coinD, Distr.call, mkNominal, mkNom, bind, Except.bind, coin]
  have hrw : isA.rewrite = .bin .lshift (.name "Y") (.set [.lit (.str "a")]) := by simp [isA, PE.rewrite, rewriteCmp]
  have v1 : visit ["coin"] 1 ["global"] (.assign (.name "Y") (.call "coin" [])) ⟨false, [], [], []⟩ =
      .ok ([.sample (.name "Y") (.call "coin" [])], ⟨false, [], [("Y", .scalar)], ["coin"]⟩) := visit_dist (by simp) (by simp) (by simp [declare])
  have v2 : visit ["coin"] 1 ["global"] (.assign (.name "Z") (.call "coin" [])) ⟨false, [], [("Y", .scalar)], ["coin"]⟩ =
      .ok ([.sample (.name "Z") (.call "coin" [])], ⟨false, [], [("Y", .scalar), ("Z", .scalar)], ["coin", "coin"]⟩) := visit_dist (by simp) (by simp) (by simp [declare, List.lookup])
  have v3 : ∀ st : VS, visit ["coin"] 1 ["global"] (.condition isA) st = .ok ([.condition (.bin .lshift (.name "Y") (.set [.lit (.str "a")]))], st) := by
    intro st; simp [visit, hrw]
  have hcomp : compile ["coin"] 1 ([.assign (.name "Y") (.call "coin" [])] ++ .assign (.name "Z") (.call "coin" []) :: .condition isA :: []) =
      .ok ⟨[], ["Y", "Z"], [], [.seq [.sample (.name "Y") (.call "coin" []), .sample (.name "Z") (.call "coin" []), .condition (.bin .lshift (.name "Y") (.set [.lit (.str "a")]))]]⟩ := by
    simp only [compile, List.cons_append, List.nil_append, visitModule, visitItems, v1, v2, v3, bind, Except.bind]
    simp [sequenceBlock, VS.varNames, VS.arrays]
  have hcomp' : compile ["coin"] 1 ([.assign (.name "Y") (.call "coin" [])] ++ .condition isA :: .assign (.name "Z") (.call "coin" []) :: []) =
      .ok ⟨[], ["Y", "Z"], [], [.seq [.sample (.name "Y") (.call "coin" []), .condition (.bin .lshift (.name "Y") (.set [.lit (.str "a")])), .sample (.name "Z") (.call "coin" [])]]⟩ := by
    simp only [compile, List.cons_append, List.nil_append, visitModule, visitItems, v1, v2, v3, bind, Except.bind]
    simp [sequenceBlock, VS.varNames, VS.arrays]
  have hnames : ∀ l, Prog.names pyHost0 ctx0 ⟨[], ["Y", "Z"], [], l⟩ ns0 = .ok nsYZ := by
    intro l; simp [Prog.names, runConstants, runVariables, runArrays, bind, Except.bind, nsYZ, nsY]
  have ex : (PE.name "Y").eval pyHost0 ctx0 nsYZ = .ok (.tr (.id "Y")) := by simp [PE.eval, nsYZ, nsY, NS.bind]
  have ez : (PE.name "Z").eval pyHost0 ctx0 nsYZ = .ok (.tr (.id "Z")) := by simp [PE.eval, nsYZ, nsY, NS.bind]
  have ec : (PE.call "coin" []).eval pyHost0 ctx0 nsYZ = .ok (.dist (.one coinD)) := by simp [PE.eval, PE.evalL, pyHost0, nsYZ, nsY, ns0, NS.bind, bind, Except.bind]
  have hstr : (Tr.id "Y").inList [.str "a"] = strEv "Y" "a" := by simp [Tr.inList, strEv, numVals, strVals]
  have et : (PE.bin .lshift (.name "Y") (.set [.lit (.str "a")])).eval pyHost0 ctx0 nsYZ = .ok (.ev (strEv "Y" "a")) := by
    simp [PE.eval, PE.evalL, nsYZ, nsY, NS.bind, evalBin, evalShift, Obj.vals, bind, Except.bind, hstr]
  have hplain : ∀ m : Measure Asg, TestOK pyHost0 ctx0 nsYZ m isA := fun m =>
    ⟨.left (t := .id "Y") (by simp [PE.eval, nsYZ, nsY, NS.bind]) (by simp [PE.eval]), Filter.Eventually.of_forall fun ω => .cmp (by simp)⟩
  have hsamp : ∀ d₁, (PE.call "coin" []).eval pyHost0 ctx0 nsYZ = .ok (.dist d₁) → d₁.WF (libOf muU) muU := by intro d₁ h; rw [ec] at h; cases h; exact .one hcoin
  have hp1 : mkProd [coin "Y", coin "Z"] = .ok coins := by simp [mkProd, Spe.prodChildren, coins, coin, areDisjoint, Spe.symbolsL, Spe.symbols]
  have hp2 : mkProd [sure "Y", coin "Z"] = .ok (.prod [sure "Y", coin "Z"]) := by simp [mkProd, Spe.prodChildren, sure, coin, areDisjoint, Spe.symbolsL, Spe.symbols]
  have c1 : (coin "Y").condition ctx0 (libOf muU) (fun _ => 0) 5 (strEv "Y" "a") = .ok (sure "Y") := by
    unfold Spe.condition
    rw [if_pos (show Spe.isLeaf _ = true from rfl)]
    exact coin_cond _ 4 "Y"
  have c2 := coins_cond (libOf muU) (fun _ => 0) 4
  have hfit : (strEv "Y" "a").Fits ctx0 (withIndep "Z" ((Source.one coinD).law muU "Z") (withIndep "Y" ((Source.one coinD).law muU "Y") start)) := by
    have hm : MeasurableSet {ω : Asg | ∃ x, ω "Y" = some (.str x)} := by simpa using (measurableSet_strs (fun _ => True)).preimage (measurable_pi_apply "Y")
    have h0 : ∀ᵐ ω ∂withIndep "Y" ((Source.one coinD).law muU "Y") start, ∃ x, ω "Y" = some (.str x) := by
      have := strEv_fits.typed
      rw [source7_sem] at this
      filter_upwards [this] with ω hω
      simpa [strEv, Ev.Typed, Tr.eval] using hω
    have := source_finite (.one hcoin : (Source.one coinD).WF (libOf muU) muU) "Z"
    refine ⟨strEv_made _ _ _, by simp [strEv, Ev.All, NomId, Tr.isId], by simp [strEv, Ev.All, NomSome], by filter_upwards with ω; simp [strEv, Ev.Regular, Tr.Regular], ?_⟩
    have h1 : ∀ᵐ ω ∂withIndep "Z" ((Source.one coinD).law muU "Z") (withIndep "Y" ((Source.one coinD).law muU "Y") start), ∃ x, ω "Y" = some (.str x) := by
      rw [withIndep, ae_map_iff (measurable_addVar "Z").aemeasurable hm]
      filter_upwards [Measure.quasiMeasurePreserving_fst.ae h0] with q hq
      simpa [addVar] using hq
    filter_upwards [h1] with ω hω
    simpa [strEv, Ev.Typed, Tr.eval] using hω
  have hnot : ∀ {m : Measure Asg} t, (PE.call "coin" []).eval pyHost0 opts0.c nsYZ = .ok (.tr t) → t.MadeG true opts0.c ∧ ∀ᵐ ω ∂m, t.Regular ω := by
    intro m t h; erw [ec] at h; cases h
  have htest : ∀ {m : Measure Asg}, (strEv "Y" "a").Fits ctx0 m → isA.FitsTest pyHost0 opts0.c nsYZ m := by
    intro m h e he
    rw [hrw] at he
    erw [et] at he
    cases he
    exact h
  have hsem : ∀ (x X : String), x = X → ∀ m : Measure Asg, Stmt.sem pyHost0 opts0.c muU nsYZ (.assign (.name x) (.call "coin" [])) m = withIndep X ((Source.one coinD).law muU X) m := by
    rintro x X rfl m
    exact sem_sample rfl rfl rfl ec m
  have hcan := C46_names (p := ⟨[], ["Y", "Z"], [], []⟩) (ρ₀ := ns0) (by intro x o h; cases h) (by simp) (hnames [])
  refine ⟨⟨?_, ?_, hcan, _, _, .seq [.sample "Y" (.one coinD), .sample "Z" (.one coinD), .condition (strEv "Y" "a")], hcomp, ?_, hnames _, by simp, ?_⟩,
    ⟨?_, ?_, hcan, _, _, .seq [.sample "Y" (.one coinD), .condition (strEv "Y" "a"), .sample "Z" (.one coinD)], hcomp', ?_, hnames _, by simp, ?_⟩⟩
  · simp only [List.cons_append, List.nil_append, Stmt.SafeL, Stmt.Safe, and_true]
    rw [assignSafe_leaf rfl, assignSafe_leaf rfl]
    exact ⟨⟨by simp [PE.NoEq, PE.NoEqL], hsamp⟩, ⟨by simp [PE.NoEq, PE.NoEqL], hsamp⟩, hplain _⟩
  · simp only [List.cons_append, List.nil_append, Stmt.FitL, Stmt.Fit, AssignFit, and_true]
    refine ⟨hnot, hnot, htest ?_⟩
    rw [hsem "Y" "Y" rfl, hsem "Z" "Z" rfl]
    exact hfit
  · unfold Prog.run
    erw [hnames]
    simp only [Tgt.runL, Tgt.run, ex, ez, et, ec, show opts0.c = ctx0 from rfl, bind, Except.bind, Obj.var, allCmds, oneCmd]
  · rw [Cmd.interp]
    simp only [Cmd.interpL, List.foldlM_cons, List.foldlM_nil, Cmd.interp, Source.call, needSpe, show opts0.L = libOf muU from rfl, show opts0.c = ctx0 from rfl,
      show opts0.hash = (fun _ => 0) from rfl, show opts0.n = 5 from rfl, d1, hp1, c2, bind, Except.bind, pure, Except.pure]
  · simp only [List.cons_append, List.nil_append, Stmt.SafeL, Stmt.Safe, and_true]
    rw [assignSafe_leaf rfl, assignSafe_leaf rfl]
    exact ⟨⟨by simp [PE.NoEq, PE.NoEqL], hsamp⟩, hplain _, ⟨by simp [PE.NoEq, PE.NoEqL], hsamp⟩⟩
  · simp only [List.cons_append, List.nil_append, Stmt.FitL, Stmt.Fit, AssignFit, and_true]
    refine ⟨hnot, htest ?_, hnot⟩
    rw [hsem "Y" "Y" rfl]
    have : IsProbabilityMeasure start := by unfold start; infer_instance
    exact strEv_fits_of (coin_str start)
  · unfold Prog.run
    erw [hnames]
    simp only [Tgt.runL, Tgt.run, ex, ez, et, ec, show opts0.c = ctx0 from rfl, bind, Except.bind, Obj.var, allCmds, oneCmd]
  · rw [Cmd.interp]
    simp only [Cmd.interpL, List.foldlM_cons, List.foldlM_nil, Cmd.interp, Source.call, needSpe, show opts0.L = libOf muU from rfl, show opts0.c = ctx0 from rfl,
      show opts0.hash = (fun _ => 0) from rfl, show opts0.n = 5 from rfl, d1, hp2, c1, bind, Except.bind, pure, Except.pure]

/-- C60 non-vacuity: of two coins one is observed, before or after the other is tossed. -/
example : ∃ s s', ModelOf ["coin"] pyHost0 opts0 muU ns0 nsYZ ([.assign (.name "Y") (.call "coin" [])] ++ .assign (.name "Z") (.call "coin" []) :: .condition isA :: []) s ∧
    ModelOf ["coin"] pyHost0 opts0 muU ns0 nsYZ ([.assign (.name "Y") (.call "coin" [])] ++ .condition isA :: .assign (.name "Z") (.call "coin" []) :: []) s' ∧ s.den muU = s'.den muU := by
  have ec : (PE.call "coin" []).eval pyHost0 ctx0 nsYZ = .ok (.dist (.one coinD)) := by simp [PE.eval, PE.evalL, pyHost0, nsYZ, nsY, ns0, NS.bind, bind, Except.bind]
  have hsat : isA.sat pyHost0 ctx0 nsYZ = {ω : Asg | ω "Y" = some (.str "a")} := by
    ext ω
    show isA.Means pyHost0 ctx0 nsYZ ω ↔ _
    rw [isA, means_cmp (v := .tr (.id "Y")) (w := .str "a") (by simp [PE.eval, nsYZ, nsY, NS.bind]) (by simp [PE.eval])]
    simp [CmpOp.Holds, Obj.at, Tr.eval]
  have hd : (coin "Z").den muU = (Source.one coinD).law muU "Z" :=
    (source_ok (c := ctx0) (L := libOf muU) (.one (.nominal (by simp) (by simp))) (by norm_num [Source.call, coinD, Distr.call, mkNominal, mkNom, bind, Except.bind, coin])).1.den
  refine ⟨_, _, late_early.1, late_early.2, (C60_observe_early_partial (o := opts0) ctx0_correct (simpOK_none _ _ _) late_early.1 late_early.2 ⟨rfl, rfl⟩ (X := "Z")
    (by simp [Target.var, PE.eval, nsYZ, NS.bind, Obj.var, opts0]) ec ?_ ?_ ?_).1⟩
  · show MeasurableSet (isA.sat pyHost0 ctx0 nsYZ)
    rw [hsat]
    have hm : MeasurableSet ((fun ω : Asg => ω "Y") ⁻¹' {v | ∃ x, v = some (.str x) ∧ x = "a"}) := (measurableSet_strs (fun x => x = "a")).preimage (measurable_pi_apply "Y")
    convert hm using 1
    ext ω; simp
  · show Ignores "Z" (isA.sat pyHost0 ctx0 nsYZ)
    rw [hsat]
    intro ω ω' h
    simp [h "Y" (by decide)]
  · rw [← hd]
    exact (coin_wf ctx0 (libOf muU) muU "Z").prob

end Sppl
