import Verif.Comp.BlockLemmas
import Verif.Comp.FitSpec

set_option linter.all false

/-!
# Lemmas on the visitor: the commands of a source that fits are covered
-/

namespace Sppl
open Classical MeasureTheory
open scoped ENNReal ProbabilityTheory

section
variable {H : PyHost} {c : Ctx} {L : Lib} {μ : Dist → Measure ℝ} {D : List String}

theorem fitS_append {ps qs : List Cmd} {m : Measure Asg} :
    Cmd.SafeS c L μ (ps ++ qs) m ↔ Cmd.SafeS c L μ ps m ∧ Cmd.SafeS c L μ qs ((Cmd.semL μ ps).foldl (fun m f => f m) m) := by
  induction ps generalizing m with
  | nil => simp [Cmd.SafeS, Cmd.semL]
  | cons p ps ih => simp only [List.cons_append, Cmd.SafeS, Cmd.semL, List.foldl_cons, ih, and_assoc]

theorem safeS_one {p : Cmd} {m : Measure Asg} : Cmd.SafeS c L μ [p] m ↔ p.Safe c L μ m := by simp [Cmd.SafeS]

theorem safeB_get {ps : List Cmd} {Es : List (Set Asg)} {m : Measure Asg}
    (h : ∀ (k : ℕ) p E, ps[k]? = some p → Es[k]? = some E → m E ≠ 0 → p.Safe c L μ (m[|E])) : Cmd.SafeB c L μ ps Es m := by
  induction ps generalizing Es with
  | nil => cases Es <;> simp only [Cmd.SafeB]
  | cons p ps ih =>
    cases Es with
    | nil => simp only [Cmd.SafeB]
    | cons E Es =>
      simp only [Cmd.SafeB]
      exact ⟨h 0 p E rfl rfl, ih (fun k p E h1 h2 => h (k + 1) p E h1 h2)⟩

theorem safeB_null {ps : List Cmd} {Es : List (Set Asg)} {m : Measure Asg} (h : ∀ E ∈ Es, m E = 0) : Cmd.SafeB c L μ ps Es m :=
  safeB_get fun k p E _ h2 h3 => absurd (h E (List.mem_of_getElem? h2)) h3

theorem firsts_sub {S : Set Asg} {Es : List (Set Asg)} : ∀ E ∈ firsts S Es, E ⊆ Sᶜ := by
  induction Es generalizing S with
  | nil => simp [firsts]
  | cons E Es ih =>
    intro F hF
    simp only [firsts, List.mem_cons] at hF
    rcases hF with rfl | hF
    · exact fun ω h => h.2
    · exact (ih F hF).trans (Set.compl_subset_compl.2 Set.subset_union_left)

/-- The commands of nested choices are covered. -/
def NestSafe (c : Ctx) (L : Lib) (μ : Dist → Measure ℝ) : List (Set Asg × Cmd) → Measure Asg → Prop
  | [], _ => True
  | q :: qs, m => (m q.1 ≠ 0 → q.2.Safe c L μ (m[|q.1])) ∧ (m q.1ᶜ ≠ 0 → NestSafe c L μ qs (m[|q.1ᶜ]))

theorem safeB_nest {qs : List (Set Asg × Cmd)} (hE : ∀ q ∈ qs, MeasurableSet q.1) : ∀ (m : Measure Asg) [IsFiniteMeasure m] (S : Set Asg), MeasurableSet S →
    (m Sᶜ ≠ 0 → NestSafe c L μ qs (m[|Sᶜ])) → Cmd.SafeB c L μ (qs.map Prod.snd) (firsts S (qs.map Prod.fst)) m := by
  induction qs with
  | nil => intro m _ S _ _; simp only [List.map_nil, Cmd.SafeB]
  | cons q qs ih =>
    intro m _ S hS h
    have hq := hE q (by simp)
    by_cases h0 : m Sᶜ = 0
    · exact safeB_null fun E hE => measure_mono_null (firsts_sub E hE) h0
    obtain ⟨h1, h2⟩ := h h0
    have e1 : q.1 \ S = Sᶜ ∩ q.1 := by ext; simp [and_comm]
    have e2 : (S ∪ q.1)ᶜ = Sᶜ ∩ q.1ᶜ := by ext; simp
    have hpos : ∀ E, m (Sᶜ ∩ E) ≠ 0 → m[|Sᶜ] E ≠ 0 := by
      intro E hne
      rw [ProbabilityTheory.cond_apply hS.compl]
      exact mul_ne_zero (ENNReal.inv_ne_zero.2 (measure_ne_top m _)) hne
    simp only [List.map_cons, firsts, Cmd.SafeB]
    refine ⟨fun hne => ?_, ih (fun q hq => hE q (by simp [hq])) m (S ∪ q.1) (hS.union hq) fun hne => ?_⟩
    · rw [e1] at hne ⊢
      rw [← ProbabilityTheory.cond_cond_eq_cond_inter hS.compl hq]
      exact h1 (hpos _ hne)
    · rw [e2] at hne ⊢
      rw [← ProbabilityTheory.cond_cond_eq_cond_inter hS.compl hq.compl]
      exact h2 (hpos _ hne)

theorem safeB_nest' {qs : List (Set Asg × Cmd)} (hE : ∀ q ∈ qs, MeasurableSet q.1) (m : Measure Asg) [IsFiniteMeasure m] (h : NestSafe c L μ qs m) :
    Cmd.SafeB c L μ (qs.map Prod.snd) (firsts ∅ (qs.map Prod.fst)) m := by
  cases qs with
  | nil => simp only [List.map_nil, Cmd.SafeB]
  | cons q qs =>
    simp only [List.map_cons, firsts, Cmd.SafeB, Set.diff_empty, Set.empty_union]
    exact ⟨h.1, safeB_nest (fun q hq => hE q (by simp [hq])) m q.1 (hE q (by simp)) h.2⟩

/-- The set and the command of a branch. -/
structure BranchFit (H : PyHost) (c : Ctx) (L : Lib) (μ : Dist → Measure ℝ) (ρ : NS) (b : PE × List Stmt) (q : Set Asg × Cmd) : Prop where
  meas : MeasurableSet q.1
  yes : b.1 = PE.yes → q.1 = Set.univ
  test : b.1.Plain H c ρ → ∀ ω, b.1.TypedAt H c ρ ω → (ω ∈ q.1 ↔ b.1.Means H c ρ ω)
  body : ∀ (m : Measure Asg) [IsFiniteMeasure m], Stmt.SafeL H c L μ ρ b.2 m → Stmt.FitL H c μ ρ b.2 m → q.2.Safe c L μ m

theorem BranchFit.ae {ρ : NS} {b : PE × List Stmt} {q : Set Asg × Cmd} (h : BranchFit H c L μ ρ b q) {m : Measure Asg} (ht : TestOK H c ρ m b.1) :
    ∀ᵐ ω ∂m, ω ∈ q.1 ↔ ω ∈ b.1.sat H c ρ := by
  filter_upwards [ht.typed] with ω hω
  exact h.test ht.plain ω hω

theorem measure_ae {m : Measure Asg} {A B : Set Asg} (h : ∀ᵐ ω ∂m, ω ∈ A ↔ ω ∈ B) : m A = m B :=
  measure_congr (by filter_upwards [h] with ω hω; exact propext hω)

theorem nestSafe_cons {q : Set Asg × Cmd} {qs : List (Set Asg × Cmd)} {E : Set Asg} {m : Measure Asg} (h : ∀ᵐ ω ∂m, ω ∈ q.1 ↔ ω ∈ E) (h1 : m E ≠ 0 → q.2.Safe c L μ (m[|E]))
    (h2 : m Eᶜ ≠ 0 → NestSafe c L μ qs (m[|Eᶜ])) : NestSafe c L μ (q :: qs) m := by
  have h' : ∀ᵐ ω ∂m, ω ∈ q.1ᶜ ↔ ω ∈ Eᶜ := by filter_upwards [h] with ω hω; exact not_congr hω
  refine ⟨?_, ?_⟩
  · rw [measure_ae h, cond_ae h]; exact h1
  · rw [measure_ae h', cond_ae h']; exact h2

theorem nestSafe_unroll {ρ : NS} {t : PE} {b o : List Stmt} : ∀ {qs : List (Set Asg × Cmd)}, List.Forall₂ (BranchFit H c L μ ρ) (unrollIf t b o) qs →
    ∀ (m : Measure Asg) [IsFiniteMeasure m], (Stmt.ifs t b o).Safe H c L μ ρ m → (Stmt.ifs t b o).Fit H c μ ρ m → NestSafe c L μ qs m := by
  fun_induction unrollIf t b o with
  | case1 t b =>
    intro qs h m _ hs hf
    obtain ⟨q, qs', hq, h', rfl⟩ := List.forall₂_cons_left_iff.1 h
    cases h'
    simp only [Stmt.Safe] at hs
    simp only [Stmt.Fit] at hf
    exact nestSafe_cons (hq.ae hs.1) (fun h0 => hq.body _ hs.2.1 (hf.2.1 h0)) (fun _ => trivial)
  | case2 t b t' b' o' ih =>
    intro qs h m _ hs hf
    obtain ⟨q, qs', hq, h', rfl⟩ := List.forall₂_cons_left_iff.1 h
    simp only [Stmt.Safe] at hs
    rw [Stmt.Fit] at hf
    refine nestSafe_cons (hq.ae hs.1) (fun h0 => hq.body _ hs.2.1 (hf.2.1 h0)) (fun h0 => ?_)
    have k1 := hs.2.2.1
    have k2 := hf.2.2 h0
    simp only [Stmt.SafeL, and_true] at k1
    simp only [Stmt.FitL, and_true] at k2
    exact ih h' _ k1 k2
  | case3 t b o h1 h2 =>
    intro qs h m _ hs hf
    obtain ⟨q, qs', hq, h', rfl⟩ := List.forall₂_cons_left_iff.1 h
    obtain ⟨q', qs'', hq', h'', rfl⟩ := List.forall₂_cons_left_iff.1 h'
    cases h''
    simp only [Stmt.Safe] at hs
    rw [Stmt.Fit] at hf
    refine nestSafe_cons (hq.ae hs.1) (fun h0 => hq.body _ hs.2.1 (hf.2.1 h0)) (fun h0 => ?_)
    have := ProbabilityTheory.cond_isProbabilityMeasure (μ := m) h0
    refine nestSafe_cons (E := Set.univ) (by rw [hq'.yes rfl]; simp) (fun _ => ?_) (fun _ => trivial)
    rw [ProbabilityTheory.cond_univ]
    exact hq'.body _ hs.2.2.1 (hf.2.2 h0)

theorem unrollIfExp_tests (target : Target) (t a b : PE) : elifTests [unrollIfExp target t a b] = t :: elseTests b := by
  fun_induction unrollIfExp target t a b with
  | case1 t a t' a' b' ih => rw [elifTests, ih, elseTests]
  | case2 t a b hb =>
    rw [elifTests, elseTests.eq_2 _ hb]
    simp [elifTests]

theorem unrollIfExp_fit {ρ : NS} (target : Target) : ∀ (t a b : PE) (m : Measure Asg), AssignFit H c ρ (.ifexp t a b) m → (unrollIfExp target t a b).Fit H c μ ρ m := by
  have step : ∀ (t a b : PE) (m : Measure Asg) (s : Stmt), AssignFit H c ρ (.ifexp t a b) m → elifTests [s] = elseTests b →
      (∀ m', AssignFit H c ρ b m' → s.Fit H c μ ρ m') → (Stmt.ifs t [.assign target a] [s]).Fit H c μ ρ m := by
    intro t a b m s h he hs
    rw [AssignFit] at h
    simp only [Stmt.Fit, Stmt.FitL, and_true, he]
    exact ⟨h.1, h.2.1, fun h0 => hs _ (h.2.2 h0)⟩
  intro t a b
  fun_induction unrollIfExp target t a b with
  | case1 t a t' a' b' ih => exact fun m h => step t a _ m _ h (by rw [unrollIfExp_tests, elseTests]) (fun m' h' => ih m' h')
  | case2 t a b hb => exact fun m h => step t a b m _ h (by rw [elseTests.eq_2 _ hb]; simp [elifTests]) (fun m' h' => by simpa only [Stmt.Fit] using h')

/-! ## The visitor -/

/-- The commands that are written are covered. -/
def FitRuns (H : PyHost) (c : Ctx) (L : Lib) (μ : Dist → Measure ℝ) (ρ : NS) (ts : List Tgt) (S F : Measure Asg → Prop) : Prop :=
  ∀ ms : List Cmd, Tgt.runL H c ρ ts = .ok (ms.map Arg.cmd) → ∀ (m : Measure Asg) [IsFiniteMeasure m], S m → F m → Cmd.SafeS c L μ ms m

/-- What is shown of a visit. -/
def VisitFit (H : PyHost) (c : Ctx) (L : Lib) (μ : Dist → Measure ℝ) (ctx : List String) (r : List Tgt × VS) (S F : NS → Measure Asg → Prop) : Prop :=
  ∀ ρ : NS, ρ.Canonical → (ctx = ["global"] → ∀ p ∈ r.2.constants, p.2.IsConst H c ρ) → FitRuns H c L μ ρ r.1 (S ρ) (F ρ)

/-- What is shown of the visit of a statement. -/
def FitsStmt (H : PyHost) (c : Ctx) (L : Lib) (μ : Dist → Measure ℝ) (ctx : List String) (f : Stmt → VS → Res (List Tgt × VS)) : Prop :=
  ∀ s st r, f s st = .ok r → VisitFit H c L μ ctx r (fun ρ => s.Safe H c L μ ρ) (fun ρ => s.Fit H c μ ρ)

theorem map_cmd_inj {ms ms' : List Cmd} (h : ms.map Arg.cmd = ms'.map Arg.cmd) : ms = ms' :=
  List.map_injective_iff.2 (fun a b h => by injection h) h

theorem fitRuns_nil {ρ : NS} {S F : Measure Asg → Prop} : FitRuns H c L μ ρ [] S F := by
  intro ms h m _ _ _
  simp only [Tgt.runL] at h
  injection h with h
  have : ms = [] := by simpa using h.symm
  subst this
  simp only [Cmd.SafeS]

theorem fitRuns_one {ρ : NS} {t : Tgt} {S F : Measure Asg → Prop} (h : ∀ p, t.run H c ρ = .ok (.cmd p) → ∀ (m : Measure Asg) [IsFiniteMeasure m], S m → F m → p.Safe c L μ m) :
    FitRuns H c L μ ρ [t] S F := by
  intro ms hms m _ hS hF
  obtain ⟨a, ha, e⟩ := runL_one hms
  cases ms with
  | nil => simp at e
  | cons p ms =>
    simp only [List.map_cons, List.cons.injEq] at e
    obtain ⟨rfl, e⟩ := e
    have : ms = [] := by simpa using e
    subst this
    exact safeS_one.2 (h p ha m hS hF)

theorem items_fit {ctx : List String} {f : Stmt → VS → Res (List Tgt × VS)} (hv : VisitsStmt H c L μ ctx f) (hf : FitsStmt H c L μ ctx f) : ∀ (ss : List Stmt) (st : VS) (r : List Tgt × VS),
    visitItems f ss st = .ok r → VisitFit H c L μ ctx r (fun ρ => Stmt.SafeL H c L μ ρ ss) (fun ρ => Stmt.FitL H c μ ρ ss) := by
  intro ss
  induction ss with
  | nil =>
    intro st r h
    simp only [visitItems] at h
    injection h with h; subst h
    exact fun ρ _ _ => fitRuns_nil
  | cons s ss ih =>
    intro st r h
    simp only [visitItems, bind, Except.bind] at h
    split at h; · cases h
    rename_i a ha
    split at h; · cases h
    rename_i b hb
    injection h with h; subst h
    obtain ⟨-, k2⟩ := hv s st a ha
    obtain ⟨-, l2⟩ := items_ok hv ss a.2 b hb
    intro ρ hρ hc ms has m _ hS hF
    obtain ⟨as1, as2, h1, h2, he⟩ := runL_append has
    have hc1 : ctx = ["global"] → ∀ p ∈ a.2.constants, p.2.IsConst H c ρ := fun hg p hp => hc hg p (l2.mono p hp)
    obtain ⟨ms1, rfl, q1⟩ := k2.runs ρ hρ hc1 as1 h1
    obtain ⟨ms2, rfl, q2⟩ := l2.runs ρ hρ hc as2 h2
    rw [← List.map_append] at he
    have := map_cmd_inj he
    subst this
    simp only [Stmt.SafeL] at hS
    simp only [Stmt.FitL] at hF
    have := Stmt.sem_finite s ρ m hS.1
    rw [fitS_append, q1 m hS.1]
    exact ⟨hf s st a ha ρ hρ hc1 ms1 h1 m hS.1 hF.1, ih a.2 b hb ρ hρ hc ms2 h2 _ hS.2 hF.2⟩

theorem module_fit {ctx : List String} {f : Stmt → VS → Res (List Tgt × VS)} (hv : VisitsStmt H c L μ ctx f) (hf : FitsStmt H c L μ ctx f) {ss : List Stmt} {st : VS} {r : List Tgt × VS}
    (h : visitModule f ss st = .ok r) : VisitFit H c L μ ctx r (fun ρ => Stmt.SafeL H c L μ ρ ss) (fun ρ => Stmt.FitL H c μ ρ ss) := by
  simp only [visitModule, bind, Except.bind] at h
  split at h; · cases h
  rename_i a ha
  injection h with h; subst h
  have k2 := items_fit hv hf ss _ a ha
  have k1 := (items_ok hv ss _ a ha).2
  simp only [sequenceBlock]
  by_cases hs : (decide (1 < ss.length) || st.first) = true
  · rw [if_pos hs]
    intro ρ hρ hc
    refine fitRuns_one fun p hp m _ hS hF => ?_
    simp only [Tgt.run, bind, Except.bind] at hp
    split at hp; · cases hp
    rename_i as has
    obtain ⟨ms, rfl, -⟩ := k1.runs ρ hρ hc as has
    rw [allCmds_map] at hp
    injection hp with hp; injection hp with hp; subst hp
    simp only [Cmd.Safe]
    exact k2 ρ hρ hc ms has m hS hF
  · rw [if_neg hs]
    exact k2

/-- The value of the test and the command of a branch. -/
structure BranchGoes (H : PyHost) (c : Ctx) (L : Lib) (μ : Dist → Measure ℝ) (ρ : NS) (b : PE × List Stmt) (q : Obj × Cmd) : Prop where
  test : b.1.rewrite.eval H c ρ = .ok q.1
  body : ∀ (m : Measure Asg) [IsFiniteMeasure m], Stmt.SafeL H c L μ ρ b.2 m → Stmt.FitL H c μ ρ b.2 m → q.2.Safe c L μ m

theorem visitBranches_fit {block : List String → List Stmt → VS → Res (List Tgt × VS)} {ctx : List String}
    (hb : ∀ ctx', ctx' = ctx ∨ ctx' = ctx ++ ["elif"] → ∀ ss st r, block ctx' ss st = .ok r →
      r.1.length ≤ 1 ∧ VisitOK H c μ ctx' st r (fun ρ => Stmt.semL H c μ ρ ss) (fun ρ => Stmt.SafeL H c L μ ρ ss) ∧
        VisitFit H c L μ ctx' r (fun ρ => Stmt.SafeL H c L μ ρ ss) (fun ρ => Stmt.FitL H c μ ρ ss)) (hg : ctx ≠ ["global"]) :
    ∀ (bs : List (PE × List Stmt)) (first : Bool) (st : VS) (r : List Tgt × VS), visitBranches block ctx first bs st = .ok r →
    ∀ ρ : NS, ρ.Canonical → ∀ as q, Tgt.runL H c ρ r.1 = .ok as → splitArgs as = .ok q →
      ∃ qs : List (Obj × Cmd), q.1 = qs.map Prod.fst ∧ q.2 = qs.map Prod.snd ∧ List.Forall₂ (BranchGoes H c L μ ρ) bs qs := by
  intro bs
  induction bs with
  | nil =>
    intro first st r h
    simp only [visitBranches] at h
    injection h with h; subst h
    refine fun ρ _ as q has hq => ?_
    simp only [Tgt.runL] at has
    injection has with has; subst has
    simp only [splitArgs] at hq
    injection hq with hq; subst hq
    exact ⟨[], rfl, rfl, .nil⟩
  | cons b bs ih =>
    obtain ⟨test, body⟩ := b
    intro first st r h
    simp only [visitBranches, bind, Except.bind] at h
    split at h; · cases h
    rename_i a ha
    split at h; · cases h
    rename_i b hb'
    injection h with h; subst h
    obtain ⟨k1, k2, k3⟩ := hb _ (by cases first <;> simp) body st a ha
    have l2 := ih false a.2 b hb'
    refine fun ρ hρ as q has hq => ?_
    simp only [List.cons_append, Tgt.runL, Tgt.run, bind, Except.bind] at has
    split at has; · cases has
    rename_i x hx
    split at hx; · cases hx
    rename_i o ho
    injection hx with hx; subst hx
    split at has; · cases has
    rename_i ys hys
    injection has with has; subst has
    obtain ⟨as1, as2, h1, h2, rfl⟩ := runL_append hys
    have hcon : (if first = true then ctx else ctx ++ ["elif"]) = ["global"] → ∀ p ∈ a.2.constants, p.2.IsConst H c ρ := by
      intro hgl
      cases first
      · simp only [Bool.false_eq_true, if_false] at hgl
        have := congrArg List.getLast? hgl
        simp at this
      · exact absurd hgl hg
    obtain ⟨ms, rfl, q1⟩ := k2.runs ρ hρ hcon as1 h1
    have hlen : ms.length ≤ 1 := by have := (runL_length h1).le.trans k1; rwa [List.length_map] at this
    -- exactly one command
    obtain ⟨m, rfl⟩ : ∃ m, ms = [m] := by
      match ms, hlen with
      | [m], _ => exact ⟨m, rfl⟩
      | [], _ =>
        exfalso
        simp only [List.map_nil, List.nil_append] at hq
        have : ∀ as2, Tgt.runL H c ρ b.1 = .ok as2 → ∀ m r, as2 ≠ .cmd m :: r := by
          intro as2 h2 m r
          cases bs with
          | nil =>
            simp only [visitBranches] at hb'
            injection hb' with hb'; subst hb'
            simp only [Tgt.runL] at h2
            injection h2 with h2; subst h2
            simp
          | cons b' bs' =>
            obtain ⟨t', b'⟩ := b'
            simp only [visitBranches, bind, Except.bind] at hb'
            split at hb'; · cases hb'
            split at hb'; · cases hb'
            injection hb' with hb'; subst hb'
            simp only [List.cons_append, Tgt.runL, Tgt.run, bind, Except.bind] at h2
            split at h2; · cases h2
            rename_i x hx
            split at hx; · cases hx
            injection hx with hx; subst hx
            split at h2; · cases h2
            injection h2 with h2; subst h2
            simp
        unfold splitArgs at hq
        split at hq
        · simp at *
        · rename_i o' m as' he
          rw [List.cons.injEq] at he
          exact this as2 h2 m as' he.2
        · cases hq
    simp only [List.map_cons, List.map_nil, List.cons_append, List.nil_append, splitArgs, bind, Except.bind] at hq
    split at hq; · cases hq
    rename_i q' hq'
    injection hq with hq; subst hq
    obtain ⟨qs, e1, e2, e3⟩ := l2 ρ hρ as2 q' h2 hq'
    refine ⟨(o, m) :: qs, by simp [e1], by simp [e2], .cons ⟨ho, fun μ' _ hm hf => ?_⟩ e3⟩
    exact safeS_one.1 (k3 ρ hρ hcon [m] h1 μ' hm hf)

theorem splitConds_fit {bs : List (PE × List Stmt)} {ρ : NS} {qs : List (Obj × Cmd)} (h : List.Forall₂ (BranchGoes H c L μ ρ) bs qs) : ∀ {q : List Ev × Bool}, splitConds (qs.map Prod.fst) = .ok q →
    ∃ ps : List (Set Asg × Cmd), condSets q.1 q.2 = ps.map Prod.fst ∧ qs.map Prod.snd = ps.map Prod.snd ∧ List.Forall₂ (BranchFit H c L μ ρ) bs ps ∧
      ∀ e ∈ q.1, ∃ b ∈ bs, b.1.rewrite.eval H c ρ = .ok (.ev e) := by
  induction h with
  | nil =>
    intro q hq
    simp only [List.map_nil, splitConds] at hq
    injection hq with hq; subst hq
    exact ⟨[], by simp [condSets], by simp, .nil, by simp⟩
  | @cons b x bs qs hb hbs ih =>
    intro q hq
    obtain ⟨o, p⟩ := x
    simp only [List.map_cons] at hq
    unfold splitConds at hq
    split at hq
    · cases ‹_ :: _ = []›
    · rename_i he
      rw [List.cons.injEq] at he
      obtain ⟨ho, hn⟩ := he
      have hn : qs = [] := by simpa using hn
      subst hn
      cases hbs
      injection hq with hq; subst hq
      refine ⟨[(Set.univ, p)], by simp [condSets], by simp, .cons ⟨MeasurableSet.univ, fun _ => rfl, ?_, hb.body⟩ .nil, by simp⟩
      intro hpl
      obtain ⟨e, he, -⟩ := plain_ok hpl hb.test
      dsimp only at ho he
      rw [ho] at he; cases he
    · rename_i e os he
      rw [List.cons.injEq] at he
      obtain ⟨ho, rfl⟩ := he
      subst ho
      simp only [bind, Except.bind] at hq
      split at hq; · cases hq
      rename_i q' hq'
      injection hq with hq; subst hq
      obtain ⟨ps, e1, e2, e3, e4⟩ := ih hq'
      refine ⟨({ω | e.holds ω}, p) :: ps, by simpa [condSets] using e1, by simp [e2], .cons ⟨Ev.measurable_set e, ?_, ?_, hb.body⟩ e3, ?_⟩
      · intro hy
        have := hb.test
        rw [hy] at this
        simp only [PE.yes, PE.rewrite, PE.eval] at this
        cases this
      · intro hpl ω hω
        obtain ⟨e', he', -, h2⟩ := plain_ok hpl hb.test
        injection he' with he'; subst he'
        exact h2 ω hω
      · intro f hf
        rcases List.mem_cons.1 hf with rfl | hf
        · exact ⟨b, by simp, hb.test⟩
        · obtain ⟨b', hb', h'⟩ := e4 f hf
          exact ⟨b', by simp [hb'], h'⟩
    · cases hq

theorem unrollIf_tests (t : PE) (b o : List Stmt) : ∀ x ∈ unrollIf t b o, x.1 ∈ t :: elifTests o ∨ x.1 = PE.yes := by
  fun_induction unrollIf t b o with
  | case1 t b => simp [elifTests]
  | case2 t b t' b' o' ih =>
    intro x hx
    rw [elifTests]
    rcases List.mem_cons.1 hx with rfl | hx
    · simp
    · rcases ih x hx with h | h
      · exact .inl (List.mem_cons_of_mem _ h)
      · exact .inr h
  | case3 t b o h1 h2 =>
    intro x hx
    simp at hx
    rcases hx with rfl | rfl <;> simp

theorem ifelse_fit {ctx : List String} {f : List String → Stmt → VS → Res (List Tgt × VS)} (hv : ∀ ctx', VisitsStmt H c L μ ctx' (f ctx')) (hf : ∀ ctx', FitsStmt H c L μ ctx' (f ctx'))
    {t : PE} {b o : List Stmt} {st : VS} {r : List Tgt × VS}
    (h : visitBranches (fun ctx => visitModule (f ctx)) (ctx ++ ["if"]) true (unrollIf t b o) st = .ok r) :
    VisitFit H c L μ ctx ([.ifelse r.1], r.2) (fun ρ => (Stmt.ifs t b o).Safe H c L μ ρ) (fun ρ => (Stmt.ifs t b o).Fit H c μ ρ) := by
  have k2 := visitBranches_fit (H := H) (c := c) (L := L) (μ := μ) (block := fun ctx => visitModule (f ctx))
    (fun ctx' _ ss st r h => ⟨(module_ok (hv ctx') h).1, (module_ok (hv ctx') h).2, module_fit (hv ctx') (hf ctx') h⟩)
    (by intro h; have := congrArg List.getLast? h; simp at this) _ _ _ _ h
  refine fun ρ hρ _ => fitRuns_one fun p hp m _ hS hF => ?_
  simp only [Tgt.run, bind, Except.bind] at hp
  split at hp; · cases hp
  rename_i as has
  split at hp; · cases hp
  rename_i m' hm
  injection hp with hp; injection hp with hp; subst hp
  simp only [mkIfElse, bind, Except.bind] at hm
  split at hm; · cases hm
  rename_i q hq
  split at hm; · cases hm
  rename_i cs hcs
  injection hm with hm; subst hm
  obtain ⟨qs, e1, e2, e3⟩ := k2 ρ hρ as q has hq
  rw [e1] at hcs
  obtain ⟨ps, d1, d2, d3, d4⟩ := splitConds_fit e3 hcs
  simp only [Cmd.Safe]
  refine ⟨fun e he => ?_, ?_⟩
  · obtain ⟨b', hb', he'⟩ := d4 e he
    have hF' : (Stmt.ifs t b o).Fit H c μ ρ m := hF
    rw [Stmt.Fit] at hF'
    rcases unrollIf_tests t b o b' hb' with h | h
    · exact hF'.1 _ h e he'
    · rw [h] at he'
      simp only [PE.yes, PE.rewrite, PE.eval] at he'
      cases he'
  · rw [d1, e2, d2]
    refine safeB_nest' (fun p hp => ?_) m (nestSafe_unroll d3 m hS hF)
    obtain ⟨b, _, hb⟩ := forall₂_mem_right d3 hp
    exact hb.meas

theorem random_fit {ctx : List String} {sample : Bool} {target : Target} {value : PE} {st : VS} {r : List Tgt × VS} (h1 : value.isIf = false)
    (h : visitRandom ctx sample target value st = .ok r) :
    VisitFit H c L μ ctx r (fun ρ => (Stmt.assign target value).Safe H c L μ ρ) (fun ρ => (Stmt.assign target value).Fit H c μ ρ) := by
  simp only [visitRandom, bind, Except.bind] at h
  split at h; · cases h
  injection h with h; subst h
  refine fun ρ hρ _ => fitRuns_one fun p hp m _ hS hF => ?_
  simp only [Stmt.Safe] at hS
  rw [assignSafe_leaf h1] at hS
  have hF' : ∀ t, value.eval H c ρ = .ok (.tr t) → t.MadeG true c ∧ ∀ᵐ ω ∂m, t.Regular ω := by
    simp only [Stmt.Fit] at hF
    cases value <;> first | (simp [PE.isIf] at h1; done) | simpa only [AssignFit] using hF
  rw [value.rewrite_noEq hS.1] at hp
  cases sample with
  | true =>
    simp only [if_true, Tgt.run, bind, Except.bind] at hp
    split at hp; · cases hp
    split at hp; · cases hp
    split at hp; · cases hp
    rename_i v hv
    split at hp
    · injection hp with hp; injection hp with hp; subst hp
      simp only [Cmd.Safe]
      exact hS.2 _ hv
    · cases hp
  | false =>
    simp only [Bool.false_eq_true, if_false, Tgt.run, bind, Except.bind] at hp
    split at hp; · cases hp
    split at hp; · cases hp
    split at hp; · cases hp
    rename_i v hv
    split at hp
    · injection hp with hp; injection hp with hp; subst hp
      simp only [Cmd.Safe]
      exact hF' _ hv
    · cases hp

theorem assign_fit {ctx : List String} {target : Target} {value : PE} {st : VS} {r : List Tgt × VS} (h1 : value.isIf = false)
    (h : visitAssign D ctx target value st = .ok r) :
    VisitFit H c L μ ctx r (fun ρ => (Stmt.assign target value).Safe H c L μ ρ) (fun ρ => (Stmt.assign target value).Fit H c μ ρ) := by
  have nil : r.1 = [] → VisitFit H c L μ ctx r (fun ρ => (Stmt.assign target value).Safe H c L μ ρ) (fun ρ => (Stmt.assign target value).Fit H c μ ρ) := by
    intro h ρ _ _; rw [h]; exact fitRuns_nil
  unfold visitAssign at h
  by_cases h2 : value.isArray = true
  · unfold PE.isArray at h2
    split at h2
    · simp only at h
      exact nil (array_ok h).1
    · cases h2
  · replace h2 : value.isArray = false := by simpa using h2
    simp only at h
    split at h
    · simp [PE.isArray] at h2
    · split at h
      · split at h
        · split at h
          · exact random_fit h1 h
          · cases h
        · exact random_fit h1 h
        · cases h
      · split at h
        · exact random_fit h1 h
        · exact nil (py_ok (H := H) (c := c) (L := L) (μ := μ) h1 h2 h).1

theorem fitRuns_body {ρ : NS} {ts : List Tgt} {S F : Measure Asg → Prop} (h : FitRuns H c L μ ρ ts S F) {as : List Arg} {p : Cmd}
    (h1 : Tgt.runL H c ρ ts = .ok as) (h2 : oneCmd as = .ok p) : ∀ (m : Measure Asg) [IsFiniteMeasure m], S m → F m → p.Safe c L μ m := by
  rw [oneCmd_ok h2] at h1
  exact fun m _ hS hF => safeS_one.1 (h [p] h1 m hS hF)

theorem for_fit {ctx : List String} {body : List Stmt} {st : VS} {r : List Tgt × VS} {x : String} {n0 n1 : PE} (hg : ctx ≠ ["global"])
    (hv : VisitOK H c μ ctx st r (fun ρ => Stmt.semL H c μ ρ body) (fun ρ => Stmt.SafeL H c L μ ρ body))
    (h : VisitFit H c L μ ctx r (fun ρ => Stmt.SafeL H c L μ ρ body) (fun ρ => Stmt.FitL H c μ ρ body)) :
    ∀ ctx', VisitFit H c L μ ctx' ([.forr n0 n1 x r.1], r.2) (fun ρ => (Stmt.forr x n0 n1 body).Safe H c L μ ρ) (fun ρ => (Stmt.forr x n0 n1 body).Fit H c μ ρ) := by
  refine fun ctx' ρ hρ _ => fitRuns_one fun p hp m _ hS hF => ?_
  simp only [Tgt.run, bind, Except.bind] at hp
  split at hp; · cases hp
  rename_i o0 h0
  split at hp; · cases hp
  rename_i o1 h1
  split at hp
  · rename_i a b
    split at hp; · cases hp
    rename_i ms hms
    injection hp with hp; injection hp with hp; subst hp
    simp only [Stmt.Safe] at hS
    simp only [Stmt.Fit] at hF
    replace hS := hS a b h0 h1
    replace hF := hF a b h0 h1
    have key : ∀ k : ℕ, k ≤ (b - a).toNat → IsFiniteMeasure ((List.range k).foldl (fun m (k : ℕ) => Stmt.semL H c μ (ρ.bind x (.int (a + (k : ℤ)))) body m) m) ∧
        (List.range k).foldl (fun m (k : ℕ) => Cmd.sem μ (tabulate a ms (a + (k : ℤ))) m) m =
        (List.range k).foldl (fun m (k : ℕ) => Stmt.semL H c μ (ρ.bind x (.int (a + (k : ℤ)))) body m) m := by
      intro k
      induction k with
      | zero => intro _; exact ⟨by simpa, rfl⟩
      | succ k ih =>
        intro hk
        obtain ⟨i1, i2⟩ := ih (by omega)
        have hsafe := hS k (by omega)
        rw [List.range_succ, List.foldl_append, List.foldl_append, i2]
        refine ⟨Stmt.semL_finite body _ _ hsafe, ?_⟩
        obtain ⟨as, p1, p2⟩ := for_body hms (k := k) (by omega)
        exact (hv.runs _ (canonical_bind hρ (by simp) (by simp)) (fun hh => absurd hh hg)).one p1 p2 _ hsafe
    simp only [Cmd.Safe]
    intro k hk
    obtain ⟨i1, i2⟩ := key k hk.le
    rw [i2]
    obtain ⟨as, p1, p2⟩ := for_body hms (k := k) hk
    exact fitRuns_body (h _ (canonical_bind hρ (by simp) (by simp)) (fun hh => absurd hh hg)) p1 p2 _ (hS k hk) (hF k hk)
  · cases hp

theorem switch_fit {ctx : List String} {body : List Stmt} {r : List Tgt × VS} {i : Option String} {x : String} {sym vals : PE} (hg : ctx ≠ ["global"])
    (h : VisitFit H c L μ ctx r (fun ρ => Stmt.SafeL H c L μ ρ body) (fun ρ => Stmt.FitL H c μ ρ body)) :
    ∀ ctx', VisitFit H c L μ ctx' ([.switch sym vals i x r.1], r.2) (fun ρ => (Stmt.switch i x sym vals body).Safe H c L μ ρ)
      (fun ρ => (Stmt.switch i x sym vals body).Fit H c μ ρ) := by
  refine fun ctx' ρ hρ _ => fitRuns_one fun p hp m _ hS hF => ?_
  simp only [Tgt.run, bind, Except.bind] at hp
  split at hp; · cases hp
  rename_i o0 h0
  split at hp; · cases hp
  rename_i o1 h1
  split at hp
  · rename_i t vs
    split at hp; · cases hp
    rename_i ss hss
    split at hp; · cases hp
    rename_i ms hms
    injection hp with hp; injection hp with hp; subst hp
    simp only [Stmt.Safe] at hS
    simp only [Stmt.Fit] at hF
    replace hS := hS t vs h0 h1
    obtain ⟨hF0, hF⟩ := hF t vs h0 h1
    simp only [Cmd.Safe]
    refine ⟨hF0 ss hss, ?_⟩
    replace hss := mapM_ok hss
    replace hms := mapM_ok hms
    have e1 : caseSets t ss = vs.map (fun v => {ω | CaseHolds ω t v}) := by
      clear hS hF hF0 hms h1
      induction hss with
      | nil => rfl
      | cons h1 _ ih =>
        simp only [caseSets, List.map_cons] at ih ⊢
        rw [ih]
        congr 1
        ext ω
        exact swVal_holds h1 t ω
    rw [e1]
    refine safeB_get fun k p E hp hE h3 => ?_
    have hl : k < vs.length := by
      have := (List.getElem?_eq_some_iff.1 hE).1
      simpa [firsts_length] using this
    have hl2 : k < ms.length := by rw [← hms.length_eq]; simpa using hl
    have hl4 : k < vs.zipIdx.length := by simpa using hl
    have hl3 : k < ss.length := by rw [← hss.length_eq]; exact hl
    have q1 := (List.forall₂_iff_get.1 hms).2 k hl4 hl2
    have q2 := (List.forall₂_iff_get.1 hss).2 k hl hl3
    simp only [List.get_eq_getElem, List.getElem_zipIdx, Nat.zero_add, bindCase_eq, bind, Except.bind] at q1 q2
    split at q1; · cases q1
    rename_i as has
    obtain ⟨c1, c2⟩ := swVal_closed q2
    rw [List.getElem?_eq_getElem hl2] at hp
    injection hp with hp; subst hp
    exact fitRuns_body (h _ (bindCase_canonical hρ c1 c2) (fun hh => absurd hh hg)) has q1 _ (hS k vs[k] (List.getElem?_eq_getElem hl) E hE) (hF k vs[k] (List.getElem?_eq_getElem hl) E hE h3)
  · cases hp

/-- **The visitor.** -/
theorem visit_fit : ∀ (n : ℕ) (ctx : List String), FitsStmt H c L μ ctx (visit D n ctx) := by
  intro n
  induction n with
  | zero => intro ctx s st r h; simp only [visit] at h; cases h
  | succ n ih =>
    intro ctx s st r h
    have ihv : ∀ ctx, VisitsStmt H c L μ ctx (visit D n ctx) := visit_ok n
    have happ : ∀ w : String, w ≠ "global" → ctx ++ [w] ≠ ["global"] := by
      intro w hw h
      have := congrArg List.getLast? h
      simp at this
      exact hw this
    cases s with
    | assign target e =>
      by_cases h1 : e.isIf = true
      · cases e <;> simp [PE.isIf] at h1
        rename_i t a b
        simp only [visit] at h
        intro ρ hρ hcon ms hms m _ hS hF
        simp only [Stmt.Safe] at hS
        simp only [Stmt.Fit] at hF
        exact ih ctx _ _ _ h ρ hρ hcon ms hms m (unrollIfExp_safe target t a b m hS) (unrollIfExp_fit target t a b m hF)
      · have h2 : visit D (n + 1) ctx (.assign target e) st = visitAssign D ctx target e st := by
          cases e <;> first | (simp [PE.isIf] at h1; done) | simp only [visit]
        rw [h2] at h
        exact assign_fit (by simpa using h1) h
    | ifs t b o =>
      simp only [visit, bind, Except.bind] at h
      split at h; · cases h
      split at h; · cases h
      rename_i q hq
      injection h with h; subst h
      exact ifelse_fit ihv ih hq
    | forr x n0 n1 body =>
      simp only [visit, bind, Except.bind] at h
      split at h; · cases h
      rename_i q hq
      injection h with h; subst h
      exact for_fit (happ "for" (by decide)) (module_ok (ihv _) hq).2 (module_fit (ihv _) (ih _) hq) ctx
    | switch i x sym vals body =>
      simp only [visit, bind, Except.bind] at h
      split at h; · cases h
      rename_i q hq
      injection h with h; subst h
      exact switch_fit (happ "switch" (by decide)) (module_fit (ihv _) (ih _) hq) ctx
    | condition e =>
      simp only [visit] at h
      injection h with h; subst h
      refine fun ρ hρ _ => fitRuns_one fun p hp m _ hS hF => ?_
      simp only [Tgt.run, bind, Except.bind] at hp
      split at hp; · cases hp
      rename_i v hv
      split at hp
      · injection hp with hp; injection hp with hp; subst hp
        simp only [Stmt.Fit] at hF
        simp only [Cmd.Safe]
        exact hF _ hv
      · cases hp
    | constrain items =>
      intro ρ _ _ ms _ m _ _ hF
      simp only [Stmt.Fit] at hF
    | call f args =>
      intro ρ _ _ ms _ m _ hS _
      simp only [Stmt.Safe] at hS
    | other body =>
      intro ρ _ _ ms _ m _ hS _
      simp only [Stmt.Safe] at hS
    | pass =>
      simp only [visit] at h
      injection h with h; subst h
      exact fun ρ _ _ => fitRuns_nil

end

end Sppl
