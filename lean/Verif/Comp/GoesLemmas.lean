import Verif.Comp.FitLemmas
import Verif.Comp.GoesSpec

set_option linter.all false

/-!
# Lemmas on the visitor: the commands of a source that runs
-/

namespace Sppl
open Classical MeasureTheory
open scoped ENNReal ProbabilityTheory

section
variable {H : PyHost} {c : Ctx} {L : Lib} {μ : Dist → Measure ℝ} {D : List String}

theorem Scope.Less.refl (Γ : Scope) : Γ.Less Γ := ⟨rfl, subset_rfl, subset_rfl, subset_rfl, id, .inl rfl⟩

theorem Scope.Less.trans {Γ Δ Θ : Scope} (h : Θ.Less Δ) (h' : Δ.Less Γ) : Θ.Less Γ :=
  ⟨h.vars.trans h'.vars, h.base.trans h'.base, h.cont.trans h'.cont, h.nums.trans h'.nums, fun k => h'.tall (h.tall k), by
    rcases h.curv with k | k
    · rw [k]; exact h'.curv
    · exact .inr k⟩

/-- One command after the other. -/
def RunsSeq (c : Ctx) (μ : Dist → Measure ℝ) : List Cmd → Scope → Measure Asg → Scope → Prop
  | [], Γ, _, Δ => Δ = Γ
  | p :: ps, Γ, m, Δ => ∃ Θ, Runs c μ Γ m p Θ ∧ RunsSeq c μ ps Θ (p.sem μ m) Δ

theorem runsSeq_one {p : Cmd} {Γ Δ : Scope} {m : Measure Asg} (h : RunsSeq c μ [p] Γ m Δ) : Runs c μ Γ m p Δ := by
  obtain ⟨Θ, h1, rfl⟩ := h
  exact h1

theorem runsSeq_of {p : Cmd} {Γ Δ : Scope} {m : Measure Asg} (h : Runs c μ Γ m p Δ) : RunsSeq c μ [p] Γ m Δ := ⟨Δ, h, rfl⟩

theorem runsSeq_seq {ps : List Cmd} {Γ Δ : Scope} {m : Measure Asg} (h : RunsSeq c μ ps Γ m Δ) : Runs c μ Γ m (.seq ps) Δ := by
  induction ps generalizing Γ m with
  | nil => cases h; exact .nil
  | cons p ps ih =>
    obtain ⟨Θ, h1, h2⟩ := h
    exact .cons h1 (ih h2)

theorem runsSeq_append {ps qs : List Cmd} {Γ Θ Δ : Scope} {m : Measure Asg} (h1 : RunsSeq c μ ps Γ m Θ) (h2 : RunsSeq c μ qs Θ ((Cmd.semL μ ps).foldl (fun m f => f m) m) Δ) :
    RunsSeq c μ (ps ++ qs) Γ m Δ := by
  induction ps generalizing Γ m with
  | nil => cases h1; simpa [Cmd.semL] using h2
  | cons p ps ih =>
    obtain ⟨Ξ, k1, k2⟩ := h1
    exact ⟨Ξ, k1, ih k2 (by simpa [Cmd.semL] using h2)⟩

/-- The commands of nested choices have a property. -/
def NestAll (P : Cmd → Measure Asg → Prop) : List (Set Asg × Cmd) → Measure Asg → Prop
  | [], _ => True
  | q :: qs, m => (m q.1 ≠ 0 → P q.2 (m[|q.1])) ∧ (m q.1ᶜ ≠ 0 → NestAll P qs (m[|q.1ᶜ]))

theorem zip_nest {P : Cmd → Measure Asg → Prop} {qs : List (Set Asg × Cmd)} (hE : ∀ q ∈ qs, MeasurableSet q.1) : ∀ (m : Measure Asg) [IsFiniteMeasure m] (S : Set Asg), MeasurableSet S →
    (m Sᶜ ≠ 0 → NestAll P qs (m[|Sᶜ])) → ∀ x ∈ (qs.map Prod.snd).zip (firsts S (qs.map Prod.fst)), m x.2 ≠ 0 → P x.1 (m[|x.2]) := by
  induction qs with
  | nil => intro m _ S _ _; simp
  | cons q qs ih =>
    intro m _ S hS h
    have hq := hE q (by simp)
    by_cases h0 : m Sᶜ = 0
    · intro x hx h1
      exact absurd (measure_mono_null (firsts_sub _ (List.of_mem_zip hx).2) h0) h1
    obtain ⟨h1, h2⟩ := h h0
    have e1 : q.1 \ S = Sᶜ ∩ q.1 := by ext; simp [and_comm]
    have e2 : (S ∪ q.1)ᶜ = Sᶜ ∩ q.1ᶜ := by ext; simp
    have hpos : ∀ E, m (Sᶜ ∩ E) ≠ 0 → m[|Sᶜ] E ≠ 0 := by
      intro E hne
      rw [ProbabilityTheory.cond_apply hS.compl]
      exact mul_ne_zero (ENNReal.inv_ne_zero.2 (measure_ne_top m _)) hne
    simp only [List.map_cons, firsts, List.zip_cons_cons, List.mem_cons]
    rintro x (rfl | hx) hne
    · dsimp only at hne ⊢
      rw [e1] at hne ⊢
      rw [← ProbabilityTheory.cond_cond_eq_cond_inter hS.compl hq]
      exact h1 (hpos _ hne)
    · refine ih (fun q hq => hE q (by simp [hq])) m (S ∪ q.1) (hS.union hq) (fun hne => ?_) x hx hne
      rw [e2] at hne ⊢
      rw [← ProbabilityTheory.cond_cond_eq_cond_inter hS.compl hq.compl]
      exact h2 (hpos _ hne)

theorem zip_nest' {P : Cmd → Measure Asg → Prop} {qs : List (Set Asg × Cmd)} (hE : ∀ q ∈ qs, MeasurableSet q.1) (m : Measure Asg) [IsFiniteMeasure m] (h : NestAll P qs m) :
    ∀ x ∈ (qs.map Prod.snd).zip (firsts ∅ (qs.map Prod.fst)), m x.2 ≠ 0 → P x.1 (m[|x.2]) := by
  cases qs with
  | nil => simp
  | cons q qs =>
    simp only [List.map_cons, firsts, List.zip_cons_cons, List.mem_cons, Set.diff_empty, Set.empty_union]
    rintro x (rfl | hx) hne
    · exact h.1 hne
    · exact zip_nest (fun q hq => hE q (by simp [hq])) m q.1 (hE q (by simp)) h.2 x hx hne

/-- Nested choices cover all cases. -/
def NestCovers : List (Set Asg × Cmd) → Measure Asg → Prop
  | [], _ => False
  | q :: qs, m => m q.1ᶜ ≠ 0 → NestCovers qs (m[|q.1ᶜ])

theorem NestCovers.ae {qs : List (Set Asg × Cmd)} (hE : ∀ q ∈ qs, MeasurableSet q.1) : ∀ (m : Measure Asg) [IsFiniteMeasure m], NestCovers qs m →
    ∀ᵐ ω ∂m, ∃ E ∈ qs.map Prod.fst, ω ∈ E := by
  induction qs with
  | nil => intro m _ h; exact h.elim
  | cons q qs ih =>
    intro m _ h
    by_cases h0 : m q.1ᶜ = 0
    · have : ∀ᵐ ω ∂m, ω ∈ q.1 := h0
      filter_upwards [this] with ω hω
      exact ⟨q.1, by simp, hω⟩
    · have k := ih (fun q hq => hE q (by simp [hq])) _ (h h0)
      have hq := (hE q (by simp)).compl
      rw [ae_iff, ProbabilityTheory.cond_apply hq, mul_eq_zero] at k
      have k' : m (q.1ᶜ ∩ {ω | ¬∃ E ∈ qs.map Prod.fst, ω ∈ E}) = 0 := k.resolve_left (ENNReal.inv_ne_zero.2 (measure_ne_top m _))
      rw [ae_iff]
      refine measure_mono_null ?_ k'
      intro ω hω
      simp only [List.map_cons, List.mem_cons, exists_eq_or_imp, not_or, Set.mem_setOf_eq] at hω
      exact hω

/-- The set and the command of a branch. -/
structure BranchRuns (H : PyHost) (c : Ctx) (L : Lib) (μ : Dist → Measure ℝ) (ρ : NS) (b : PE × List Stmt) (q : Set Asg × Cmd) : Prop where
  meas : MeasurableSet q.1
  yes : b.1 = PE.yes → q.1 = Set.univ
  test : b.1.Plain H c ρ → ∀ ω, b.1.TypedAt H c ρ ω → (ω ∈ q.1 ↔ b.1.Means H c ρ ω)
  body : ∀ (m : Measure Asg) [IsFiniteMeasure m], Stmt.SafeL H c L μ ρ b.2 m → ∀ Γ Δ, Stmt.GoesL H c μ ρ b.2 Γ m Δ → Runs c μ Γ m q.2 Δ

theorem BranchRuns.ae {ρ : NS} {b : PE × List Stmt} {q : Set Asg × Cmd} (h : BranchRuns H c L μ ρ b q) {m : Measure Asg} (ht : TestOK H c ρ m b.1) :
    ∀ᵐ ω ∂m, ω ∈ q.1 ↔ ω ∈ b.1.sat H c ρ := by
  filter_upwards [ht.typed] with ω hω
  exact h.test ht.plain ω hω

theorem nestAll_cons {P : Cmd → Measure Asg → Prop} {q : Set Asg × Cmd} {qs : List (Set Asg × Cmd)} {E : Set Asg} {m : Measure Asg} (h : ∀ᵐ ω ∂m, ω ∈ q.1 ↔ ω ∈ E) (h1 : m E ≠ 0 → P q.2 (m[|E]))
    (h2 : m Eᶜ ≠ 0 → NestAll P qs (m[|Eᶜ])) (h3 : m Eᶜ ≠ 0 → NestCovers qs (m[|Eᶜ])) : NestAll P (q :: qs) m ∧ NestCovers (q :: qs) m := by
  have h' : ∀ᵐ ω ∂m, ω ∈ q.1ᶜ ↔ ω ∈ Eᶜ := by filter_upwards [h] with ω hω; exact not_congr hω
  refine ⟨⟨?_, ?_⟩, ?_⟩
  · rw [measure_ae h, cond_ae h]; exact h1
  · rw [measure_ae h', cond_ae h']; exact h2
  · simp only [NestCovers]; rw [measure_ae h', cond_ae h']; exact h3

theorem nestAll_unroll {ρ : NS} {Γ : Scope} {t : PE} {b o : List Stmt} : ∀ {qs : List (Set Asg × Cmd)}, List.Forall₂ (BranchRuns H c L μ ρ) (unrollIf t b o) qs →
    ∀ (m : Measure Asg) [IsFiniteMeasure m] (Δ : Scope), (Stmt.ifs t b o).Safe H c L μ ρ m → (Stmt.ifs t b o).Goes H c μ ρ Γ m Δ →
      NestAll (fun p m => Runs c μ Γ m p Δ) qs m ∧ NestCovers qs m := by
  fun_induction unrollIf t b o with
  | case1 t b =>
    intro qs h m _ Δ hs hf
    obtain ⟨q, qs', hq, h', rfl⟩ := List.forall₂_cons_left_iff.1 h
    cases h'
    simp only [Stmt.Safe] at hs
    simp only [Stmt.Goes] at hf
    exact nestAll_cons (hq.ae hs.1) (fun h0 => hq.body _ hs.2.1 _ _ (hf.2.2.1 h0)) (fun _ => trivial) (fun h0 => absurd (by simpa using hs.2.2.2) h0)
  | case2 t b t' b' o' ih =>
    intro qs h m _ Δ hs hf
    obtain ⟨q, qs', hq, h', rfl⟩ := List.forall₂_cons_left_iff.1 h
    simp only [Stmt.Safe] at hs
    rw [Stmt.Goes] at hf
    have key : m (t.sat H c ρ)ᶜ ≠ 0 → NestAll (fun p m => Runs c μ Γ m p Δ) qs' (m[|(t.sat H c ρ)ᶜ]) ∧ NestCovers qs' (m[|(t.sat H c ρ)ᶜ]) := by
      intro h0
      have k1 := hs.2.2.1
      have k2 := hf.2.2.2 h0
      simp only [Stmt.SafeL, and_true] at k1
      simp only [Stmt.GoesL] at k2
      obtain ⟨Θ, k2, rfl⟩ := k2
      exact ih h' _ _ k1 k2
    exact nestAll_cons (hq.ae hs.1) (fun h0 => hq.body _ hs.2.1 _ _ (hf.2.2.1 h0)) (fun h0 => (key h0).1) (fun h0 => (key h0).2)
  | case3 t b o h1 h2 =>
    intro qs h m _ Δ hs hf
    obtain ⟨q, qs', hq, h', rfl⟩ := List.forall₂_cons_left_iff.1 h
    obtain ⟨q', qs'', hq', h'', rfl⟩ := List.forall₂_cons_left_iff.1 h'
    cases h''
    simp only [Stmt.Safe] at hs
    rw [Stmt.Goes] at hf
    have key : m (t.sat H c ρ)ᶜ ≠ 0 → NestAll (fun p m => Runs c μ Γ m p Δ) [q'] (m[|(t.sat H c ρ)ᶜ]) ∧ NestCovers [q'] (m[|(t.sat H c ρ)ᶜ]) := by
      intro h0
      have := ProbabilityTheory.cond_isProbabilityMeasure (μ := m) h0
      refine nestAll_cons (E := Set.univ) (by rw [hq'.yes rfl]; simp) (fun _ => ?_) (fun _ => trivial) (fun h => by simp at h)
      rw [ProbabilityTheory.cond_univ]
      exact hq'.body _ hs.2.2.1 _ _ (hf.2.2.2 h0)
    exact nestAll_cons (hq.ae hs.1) (fun h0 => hq.body _ hs.2.1 _ _ (hf.2.2.1 h0)) (fun h0 => (key h0).1) (fun h0 => (key h0).2)


theorem unrollIfExp_goes {ρ : NS} (target : Target) : ∀ (t a b : PE) (Γ : Scope) (m : Measure Asg) (Δ : Scope), AssignGoes H c ρ target (.ifexp t a b) Γ m Δ →
    (unrollIfExp target t a b).Goes H c μ ρ Γ m Δ := by
  have step : ∀ (t a b : PE) (Γ : Scope) (m : Measure Asg) (Δ : Scope) (s : Stmt), AssignGoes H c ρ target (.ifexp t a b) Γ m Δ → elifTests [s] = elseTests b →
      (∀ m', AssignGoes H c ρ target b Γ m' Δ → s.Goes H c μ ρ Γ m' Δ) → (Stmt.ifs t [.assign target a] [s]).Goes H c μ ρ Γ m Δ := by
    intro t a b Γ m Δ s h he hs
    rw [AssignGoes] at h
    simp only [Stmt.Goes, Stmt.GoesL, exists_eq_right', exists_eq_right, he]
    exact ⟨h.1, h.2.1, h.2.2.1, fun h0 => hs _ (h.2.2.2 h0)⟩
  intro t a b
  fun_induction unrollIfExp target t a b with
  | case1 t a t' a' b' ih => exact fun Γ m Δ h => step t a _ Γ m Δ _ h (by rw [unrollIfExp_tests, elseTests]) (fun m' h' => ih Γ m' Δ h')
  | case2 t a b hb => exact fun Γ m Δ h => step t a b Γ m Δ _ h (by rw [elseTests.eq_2 _ hb]; simp [elifTests]) (fun m' h' => by simpa only [Stmt.Goes] using h')

/-! ## The visitor -/

/-- The commands that are written run. -/
def GoesRuns (H : PyHost) (c : Ctx) (μ : Dist → Measure ℝ) (ρ : NS) (ts : List Tgt) (S : Measure Asg → Prop) (F : Scope → Measure Asg → Scope → Prop) : Prop :=
  ∀ ms : List Cmd, Tgt.runL H c ρ ts = .ok (ms.map Arg.cmd) → ∀ (m : Measure Asg) [IsFiniteMeasure m], S m → ∀ Γ Δ, F Γ m Δ → RunsSeq c μ ms Γ m Δ

/-- What is shown of a visit. -/
def VisitGoes (H : PyHost) (c : Ctx) (L : Lib) (μ : Dist → Measure ℝ) (ctx : List String) (r : List Tgt × VS) (S : NS → Measure Asg → Prop) (F : NS → Scope → Measure Asg → Scope → Prop) : Prop :=
  ∀ ρ : NS, ρ.Canonical → (ctx = ["global"] → ∀ p ∈ r.2.constants, p.2.IsConst H c ρ) → GoesRuns H c μ ρ r.1 (S ρ) (F ρ)

/-- What is shown of the visit of a statement. -/
def GoesStmt (H : PyHost) (c : Ctx) (L : Lib) (μ : Dist → Measure ℝ) (ctx : List String) (f : Stmt → VS → Res (List Tgt × VS)) : Prop :=
  ∀ s st r, f s st = .ok r → VisitGoes H c L μ ctx r (fun ρ => s.Safe H c L μ ρ) (fun ρ => s.Goes H c μ ρ)

theorem goesRuns_nil {ρ : NS} {S : Measure Asg → Prop} {F : Scope → Measure Asg → Scope → Prop} (hF : ∀ Γ m Δ, F Γ m Δ → Δ = Γ) : GoesRuns H c μ ρ [] S F := by
  intro ms h m _ _ Γ Δ hf
  simp only [Tgt.runL] at h
  injection h with h
  have : ms = [] := by simpa using h.symm
  subst this
  exact hF Γ m Δ hf

theorem goesRuns_one {ρ : NS} {t : Tgt} {S : Measure Asg → Prop} {F : Scope → Measure Asg → Scope → Prop}
    (h : ∀ p, t.run H c ρ = .ok (.cmd p) → ∀ (m : Measure Asg) [IsFiniteMeasure m], S m → ∀ Γ Δ, F Γ m Δ → Runs c μ Γ m p Δ) : GoesRuns H c μ ρ [t] S F := by
  intro ms hms m _ hS Γ Δ hF
  obtain ⟨a, ha, e⟩ := runL_one hms
  cases ms with
  | nil => simp at e
  | cons p ms =>
    simp only [List.map_cons, List.cons.injEq] at e
    obtain ⟨rfl, e⟩ := e
    have : ms = [] := by simpa using e
    subst this
    exact runsSeq_of (h p ha m hS Γ Δ hF)

theorem items_goes {ctx : List String} {f : Stmt → VS → Res (List Tgt × VS)} (hv : VisitsStmt H c L μ ctx f) (hf : GoesStmt H c L μ ctx f) : ∀ (ss : List Stmt) (st : VS) (r : List Tgt × VS),
    visitItems f ss st = .ok r → VisitGoes H c L μ ctx r (fun ρ => Stmt.SafeL H c L μ ρ ss) (fun ρ => Stmt.GoesL H c μ ρ ss) := by
  intro ss
  induction ss with
  | nil =>
    intro st r h
    simp only [visitItems] at h
    injection h with h; subst h
    exact fun ρ _ _ => goesRuns_nil (fun Γ m Δ h => by simpa only [Stmt.GoesL] using h)
  | cons s ss ih =>
    intro st r h
    simp only [visitItems, bind, Except.bind] at h
    split at h; · cases h
    rename_i a ha
    split at h; · cases h
    rename_i b hb
    injection h with h; subst h
    obtain ⟨-, k2⟩ := hv s st a ha
    obtain ⟨-, l2⟩ := items_ok hv ss a.2 b hb
    intro ρ hρ hc ms has m _ hS Γ Δ hF
    obtain ⟨as1, as2, h1, h2, he⟩ := runL_append has
    have hc1 : ctx = ["global"] → ∀ p ∈ a.2.constants, p.2.IsConst H c ρ := fun hg p hp => hc hg p (l2.mono p hp)
    obtain ⟨ms1, rfl, q1⟩ := k2.runs ρ hρ hc1 as1 h1
    obtain ⟨ms2, rfl, q2⟩ := l2.runs ρ hρ hc as2 h2
    rw [← List.map_append] at he
    have := map_cmd_inj he
    subst this
    simp only [Stmt.SafeL] at hS
    simp only [Stmt.GoesL] at hF
    obtain ⟨Θ, hF1, hF2⟩ := hF
    have := Stmt.sem_finite s ρ m hS.1
    refine runsSeq_append (hf s st a ha ρ hρ hc1 ms1 h1 m hS.1 Γ Θ hF1) ?_
    rw [q1 m hS.1]
    exact ih a.2 b hb ρ hρ hc ms2 h2 _ hS.2 Θ Δ hF2

theorem module_goes {ctx : List String} {f : Stmt → VS → Res (List Tgt × VS)} (hv : VisitsStmt H c L μ ctx f) (hf : GoesStmt H c L μ ctx f) {ss : List Stmt} {st : VS} {r : List Tgt × VS}
    (h : visitModule f ss st = .ok r) : VisitGoes H c L μ ctx r (fun ρ => Stmt.SafeL H c L μ ρ ss) (fun ρ => Stmt.GoesL H c μ ρ ss) := by
  simp only [visitModule, bind, Except.bind] at h
  split at h; · cases h
  rename_i a ha
  injection h with h; subst h
  have k2 := items_goes hv hf ss _ a ha
  have k1 := (items_ok hv ss _ a ha).2
  simp only [sequenceBlock]
  by_cases hs : (decide (1 < ss.length) || st.first) = true
  · rw [if_pos hs]
    intro ρ hρ hc
    refine goesRuns_one fun p hp m _ hS Γ Δ hF => ?_
    simp only [Tgt.run, bind, Except.bind] at hp
    split at hp; · cases hp
    rename_i as has
    obtain ⟨ms, rfl, -⟩ := k1.runs ρ hρ hc as has
    rw [allCmds_map] at hp
    injection hp with hp; injection hp with hp; subst hp
    exact runsSeq_seq (k2 ρ hρ hc ms has m hS Γ Δ hF)
  · rw [if_neg hs]
    exact k2

/-- The value of the test and the command of a branch. -/
structure BranchVal (H : PyHost) (c : Ctx) (L : Lib) (μ : Dist → Measure ℝ) (ρ : NS) (b : PE × List Stmt) (q : Obj × Cmd) : Prop where
  test : b.1.rewrite.eval H c ρ = .ok q.1
  body : ∀ (m : Measure Asg) [IsFiniteMeasure m], Stmt.SafeL H c L μ ρ b.2 m → ∀ Γ Δ, Stmt.GoesL H c μ ρ b.2 Γ m Δ → Runs c μ Γ m q.2 Δ

theorem visitBranches_goes {block : List String → List Stmt → VS → Res (List Tgt × VS)} {ctx : List String}
    (hb : ∀ ctx', ctx' = ctx ∨ ctx' = ctx ++ ["elif"] → ∀ ss st r, block ctx' ss st = .ok r →
      r.1.length ≤ 1 ∧ VisitOK H c μ ctx' st r (fun ρ => Stmt.semL H c μ ρ ss) (fun ρ => Stmt.SafeL H c L μ ρ ss) ∧
        VisitGoes H c L μ ctx' r (fun ρ => Stmt.SafeL H c L μ ρ ss) (fun ρ => Stmt.GoesL H c μ ρ ss)) (hg : ctx ≠ ["global"]) :
    ∀ (bs : List (PE × List Stmt)) (first : Bool) (st : VS) (r : List Tgt × VS), visitBranches block ctx first bs st = .ok r →
    ∀ ρ : NS, ρ.Canonical → ∀ as q, Tgt.runL H c ρ r.1 = .ok as → splitArgs as = .ok q →
      ∃ qs : List (Obj × Cmd), q.1 = qs.map Prod.fst ∧ q.2 = qs.map Prod.snd ∧ List.Forall₂ (BranchVal H c L μ ρ) bs qs := by
  intro bs
  induction bs with
  | nil =>
    intro first st r h
    simp only [visitBranches] at h
    injection h with h; subst h
    refine fun ρ _ as q has hq => ?_
    simp only [Tgt.runL] at has
    injection has with has; subst has
    simp only [splitArgs] at hq
    injection hq with hq; subst hq
    exact ⟨[], rfl, rfl, .nil⟩
  | cons b bs ih =>
    obtain ⟨test, body⟩ := b
    intro first st r h
    simp only [visitBranches, bind, Except.bind] at h
    split at h; · cases h
    rename_i a ha
    split at h; · cases h
    rename_i b hb'
    injection h with h; subst h
    obtain ⟨k1, k2, k3⟩ := hb _ (by cases first <;> simp) body st a ha
    have l2 := ih false a.2 b hb'
    refine fun ρ hρ as q has hq => ?_
    simp only [List.cons_append, Tgt.runL, Tgt.run, bind, Except.bind] at has
    split at has; · cases has
    rename_i x hx
    split at hx; · cases hx
    rename_i o ho
    injection hx with hx; subst hx
    split at has; · cases has
    rename_i ys hys
    injection has with has; subst has
    obtain ⟨as1, as2, h1, h2, rfl⟩ := runL_append hys
    have hcon : (if first = true then ctx else ctx ++ ["elif"]) = ["global"] → ∀ p ∈ a.2.constants, p.2.IsConst H c ρ := by
      intro hgl
      cases first
      · simp only [Bool.false_eq_true, if_false] at hgl
        have := congrArg List.getLast? hgl
        simp at this
      · exact absurd hgl hg
    obtain ⟨ms, rfl, q1⟩ := k2.runs ρ hρ hcon as1 h1
    have hlen : ms.length ≤ 1 := by have := (runL_length h1).le.trans k1; rwa [List.length_map] at this
    -- exactly one command
    obtain ⟨m, rfl⟩ : ∃ m, ms = [m] := by
      match ms, hlen with
      | [m], _ => exact ⟨m, rfl⟩
      | [], _ =>
        exfalso
        simp only [List.map_nil, List.nil_append] at hq
        have : ∀ as2, Tgt.runL H c ρ b.1 = .ok as2 → ∀ m r, as2 ≠ .cmd m :: r := by
          intro as2 h2 m r
          cases bs with
          | nil =>
            simp only [visitBranches] at hb'
            injection hb' with hb'; subst hb'
            simp only [Tgt.runL] at h2
            injection h2 with h2; subst h2
            simp
          | cons b' bs' =>
            obtain ⟨t', b'⟩ := b'
            simp only [visitBranches, bind, Except.bind] at hb'
            split at hb'; · cases hb'
            split at hb'; · cases hb'
            injection hb' with hb'; subst hb'
            simp only [List.cons_append, Tgt.runL, Tgt.run, bind, Except.bind] at h2
            split at h2; · cases h2
            rename_i x hx
            split at hx; · cases hx
            injection hx with hx; subst hx
            split at h2; · cases h2
            injection h2 with h2; subst h2
            simp
        unfold splitArgs at hq
        split at hq
        · simp at *
        · rename_i o' m as' he
          rw [List.cons.injEq] at he
          exact this as2 h2 m as' he.2
        · cases hq
    simp only [List.map_cons, List.map_nil, List.cons_append, List.nil_append, splitArgs, bind, Except.bind] at hq
    split at hq; · cases hq
    rename_i q' hq'
    injection hq with hq; subst hq
    obtain ⟨qs, e1, e2, e3⟩ := l2 ρ hρ as2 q' h2 hq'
    refine ⟨(o, m) :: qs, by simp [e1], by simp [e2], .cons ⟨ho, fun μ' _ hm Γ Δ hf => ?_⟩ e3⟩
    exact runsSeq_one (k3 ρ hρ hcon [m] h1 μ' hm Γ Δ hf)

theorem splitConds_goes {bs : List (PE × List Stmt)} {ρ : NS} {qs : List (Obj × Cmd)} (h : List.Forall₂ (BranchVal H c L μ ρ) bs qs) : ∀ {q : List Ev × Bool}, splitConds (qs.map Prod.fst) = .ok q →
    ∃ ps : List (Set Asg × Cmd), condSets q.1 q.2 = ps.map Prod.fst ∧ qs.map Prod.snd = ps.map Prod.snd ∧ List.Forall₂ (BranchRuns H c L μ ρ) bs ps ∧
      ∀ e ∈ q.1, ∃ b ∈ bs, b.1.rewrite.eval H c ρ = .ok (.ev e) := by
  induction h with
  | nil =>
    intro q hq
    simp only [List.map_nil, splitConds] at hq
    injection hq with hq; subst hq
    exact ⟨[], by simp [condSets], by simp, .nil, by simp⟩
  | @cons b x bs qs hb hbs ih =>
    intro q hq
    obtain ⟨o, p⟩ := x
    simp only [List.map_cons] at hq
    unfold splitConds at hq
    split at hq
    · cases ‹_ :: _ = []›
    · rename_i he
      rw [List.cons.injEq] at he
      obtain ⟨ho, hn⟩ := he
      have hn : qs = [] := by simpa using hn
      subst hn
      cases hbs
      injection hq with hq; subst hq
      refine ⟨[(Set.univ, p)], by simp [condSets], by simp, .cons ⟨MeasurableSet.univ, fun _ => rfl, ?_, hb.body⟩ .nil, by simp⟩
      intro hpl
      obtain ⟨e, he, -⟩ := plain_ok hpl hb.test
      dsimp only at ho he
      rw [ho] at he; cases he
    · rename_i e os he
      rw [List.cons.injEq] at he
      obtain ⟨ho, rfl⟩ := he
      subst ho
      simp only [bind, Except.bind] at hq
      split at hq; · cases hq
      rename_i q' hq'
      injection hq with hq; subst hq
      obtain ⟨ps, e1, e2, e3, e4⟩ := ih hq'
      refine ⟨({ω | e.holds ω}, p) :: ps, by simpa [condSets] using e1, by simp [e2], .cons ⟨Ev.measurable_set e, ?_, ?_, hb.body⟩ e3, ?_⟩
      · intro hy
        have := hb.test
        rw [hy] at this
        simp only [PE.yes, PE.rewrite, PE.eval] at this
        cases this
      · intro hpl ω hω
        obtain ⟨e', he', -, h2⟩ := plain_ok hpl hb.test
        injection he' with he'; subst he'
        exact h2 ω hω
      · intro f hf
        rcases List.mem_cons.1 hf with rfl | hf
        · exact ⟨b, by simp, hb.test⟩
        · obtain ⟨b', hb', h'⟩ := e4 f hf
          exact ⟨b', by simp [hb'], h'⟩
    · cases hq

theorem splitConds_ev {e : Ev} {os : List Obj} {q : List Ev × Bool} (h : splitConds (.ev e :: os) = .ok q) : ∃ q', splitConds os = .ok q' ∧ q = (e :: q'.1, q'.2) := by
  simp only [splitConds, bind, Except.bind] at h
  split at h; · cases h
  rename_i q' hq'
  injection h with h
  exact ⟨q', hq', h.symm⟩

theorem unrollIf_head (t : PE) (b o : List Stmt) : ∃ xs, unrollIf t b o = (t, b) :: xs ∧ (elifTests o = [] → xs = [] ∨ ∃ o', xs = [(PE.yes, o')]) := by
  fun_cases unrollIf t b o with
  | case1 => exact ⟨[], rfl, fun _ => .inl rfl⟩
  | case2 t' b' o' => exact ⟨_, rfl, fun h => by simp [elifTests] at h⟩
  | case3 => exact ⟨_, rfl, fun _ => .inr ⟨_, rfl⟩⟩

theorem ifelse_goes {ctx : List String} {f : List String → Stmt → VS → Res (List Tgt × VS)} (hv : ∀ ctx', VisitsStmt H c L μ ctx' (f ctx')) (hf : ∀ ctx', GoesStmt H c L μ ctx' (f ctx'))
    {t : PE} {b o : List Stmt} {st : VS} {r : List Tgt × VS}
    (h : visitBranches (fun ctx => visitModule (f ctx)) (ctx ++ ["if"]) true (unrollIf t b o) st = .ok r) :
    VisitGoes H c L μ ctx ([.ifelse r.1], r.2) (fun ρ => (Stmt.ifs t b o).Safe H c L μ ρ) (fun ρ => (Stmt.ifs t b o).Goes H c μ ρ) := by
  have k2 := visitBranches_goes (H := H) (c := c) (L := L) (μ := μ) (block := fun ctx => visitModule (f ctx))
    (fun ctx' _ ss st r h => ⟨(module_ok (hv ctx') h).1, (module_ok (hv ctx') h).2, module_goes (hv ctx') (hf ctx') h⟩)
    (by intro h; have := congrArg List.getLast? h; simp at this) _ _ _ _ h
  refine fun ρ hρ _ => goesRuns_one fun p hp m _ hS Γ Δ hF => ?_
  simp only [Tgt.run, bind, Except.bind] at hp
  split at hp; · cases hp
  rename_i as has
  split at hp; · cases hp
  rename_i m' hm
  injection hp with hp; injection hp with hp; subst hp
  simp only [mkIfElse, bind, Except.bind] at hm
  split at hm; · cases hm
  rename_i q hq
  split at hm; · cases hm
  rename_i cs hcs
  injection hm with hm; subst hm
  obtain ⟨qs, e1, e2, e3⟩ := k2 ρ hρ as q has hq
  rw [e1] at hcs
  obtain ⟨ps, d1, d2, d3, d4⟩ := splitConds_goes e3 hcs
  have hF' : (Stmt.ifs t b o).Goes H c μ ρ Γ m Δ := hF
  have hS' : (Stmt.ifs t b o).Safe H c L μ ρ m := hS
  rw [Stmt.Goes] at hF'
  rw [Stmt.Safe] at hS'
  obtain ⟨g1, g3, -, -⟩ := hF'
  -- the first test is an event
  obtain ⟨e, cs', he, hcs', hhalf⟩ : ∃ e cs', t.rewrite.eval H c ρ = .ok (.ev e) ∧ cs.1 = e :: cs' ∧ (elifTests o = [] → cs' = []) := by
    obtain ⟨xs, u1, u2⟩ := unrollIf_head t b o
    rw [u1] at e3
    obtain ⟨y, ys, hy, hys, rfl⟩ := List.forall₂_cons_left_iff.1 e3
    obtain ⟨e, he, -⟩ := plain_ok hS'.1.plain hy.test
    simp only [List.map_cons, he] at hcs
    obtain ⟨q', hq', rfl⟩ := splitConds_ev hcs
    refine ⟨e, q'.1, by rw [← he]; exact hy.test, rfl, fun h => ?_⟩
    rcases u2 h with rfl | ⟨o', rfl⟩
    · cases hys
      simp only [List.map_nil, splitConds] at hq'
      injection hq' with hq'; rw [← hq']
    · obtain ⟨z, zs, hz, hzs, rfl⟩ := List.forall₂_cons_left_iff.1 hys
      cases hzs
      have hz' := hz.test
      simp only [PE.yes, PE.rewrite, PE.eval] at hz'
      injection hz' with hz'
      rw [List.map_cons, ← hz', List.map_nil, splitConds] at hq'
      injection hq' with hq'; rw [← hq']
  have hmeas : ∀ p ∈ ps, MeasurableSet p.1 := by
    intro p hp
    obtain ⟨b, _, hb⟩ := forall₂_mem_right d3 hp
    exact hb.meas
  obtain ⟨w1, w2⟩ := nestAll_unroll d3 m Δ hS hF
  refine .ifelse (by rw [hcs']; simp) ?_ ?_ ?_ g3 ?_
  · rcases g1 with ⟨g1, g2⟩ | ⟨g0, g1, g2⟩
    · refine .inl ⟨fun e he => ?_, ?_⟩
      · obtain ⟨b', hb', he'⟩ := d4 e he
        rcases unrollIf_tests t b o b' hb' with h | h
        · exact g1 _ h e he'
        · rw [h] at he'
          simp only [PE.yes, PE.rewrite, PE.eval] at he'
          cases he'
      · rcases g2 with h | ⟨h1, h2⟩
        · exact .inl h
        · exact .inr ⟨e, by rw [hcs', hhalf h1], h2 e he⟩
    · obtain ⟨k, hk, hcut⟩ := g2 e he
      exact .inr ⟨g0, k, e, by rw [hcs', hhalf g1], hk, hcut⟩
  · rw [d1, e2, d2]; simp
  · rw [d1]; exact w2.ae hmeas m
  · rw [d1, e2, d2]
    exact zip_nest' hmeas m w1

theorem assignGoes_leaf {ρ : NS} {target : Target} {e : PE} (h1 : e.isIf = false) (h2 : e.isArray = false) (Γ : Scope) (m : Measure Asg) (Δ : Scope) :
    AssignGoes H c ρ target e Γ m Δ =
      match target.var H c ρ, e.eval H c ρ with
      | some X, .ok (.dist d) => X ∉ Γ.vars ∧ d.Callable ∧ Δ.Less (Γ.add X d)
      | some Y, .ok (.tr t) => (∃ X, t.symbols = {X} ∧ X ∈ Γ.vars ∧ X ∈ Γ.nums) ∧ Y ∉ Γ.vars ∧ Δ.Less (Γ.derive Y t)
      | _, _ => Δ = Γ := by
  cases e with
  | ifexp t a b => simp [PE.isIf] at h1
  | call f args =>
    rw [AssignGoes.eq_2 _ _ _ _ _ _ _ _ (fun _ _ _ h => by cases h)]
    unfold LeafGoes
    split
    · rename_i h; injection h with h; subst h; simp [PE.isArray] at h2
    · rfl
  | _ => rw [AssignGoes.eq_2 _ _ _ _ _ _ _ _ (fun _ _ _ h => by cases h)]; rfl

theorem random_goes {ctx : List String} {sample : Bool} {target : Target} {value : PE} {st : VS} {r : List Tgt × VS} (h1 : value.isIf = false) (h2 : value.isArray = false)
    (h : visitRandom ctx sample target value st = .ok r) :
    VisitGoes H c L μ ctx r (fun ρ => (Stmt.assign target value).Safe H c L μ ρ) (fun ρ => (Stmt.assign target value).Goes H c μ ρ) := by
  simp only [visitRandom, bind, Except.bind] at h
  split at h; · cases h
  injection h with h; subst h
  refine fun ρ hρ _ => goesRuns_one fun p hp m _ hS Γ Δ hF => ?_
  simp only [Stmt.Safe] at hS
  rw [assignSafe_leaf h1] at hS
  simp only [Stmt.Goes] at hF
  rw [assignGoes_leaf h1 h2] at hF
  rw [value.rewrite_noEq hS.1] at hp
  cases sample with
  | true =>
    simp only [if_true, Tgt.run, bind, Except.bind] at hp
    split at hp; · cases hp
    rename_i x hx
    split at hp; · cases hp
    rename_i X hX
    split at hp; · cases hp
    rename_i v hv
    split at hp
    · injection hp with hp; injection hp with hp; subst hp
      rw [target_var hρ hx hX, hv] at hF
      exact .less (.sample hF.1 hF.2.1) hF.2.2
    · cases hp
  | false =>
    simp only [Bool.false_eq_true, if_false, Tgt.run, bind, Except.bind] at hp
    split at hp; · cases hp
    rename_i x hx
    split at hp; · cases hp
    rename_i X hX
    split at hp; · cases hp
    rename_i v hv
    split at hp
    · injection hp with hp; injection hp with hp; subst hp
      rw [target_var hρ hx hX, hv] at hF
      obtain ⟨⟨Z, k1, k2, k3⟩, k4, k5⟩ := hF
      exact .less (.transform k1 k2 k3 k4) k5
    · cases hp

theorem assign_goes {ctx : List String} {target : Target} {value : PE} {st : VS} {r : List Tgt × VS} (h1 : value.isIf = false)
    (h : visitAssign D ctx target value st = .ok r) :
    VisitGoes H c L μ ctx r (fun ρ => (Stmt.assign target value).Safe H c L μ ρ) (fun ρ => (Stmt.assign target value).Goes H c μ ρ) := by
  unfold visitAssign at h
  by_cases h2 : value.isArray = true
  · unfold PE.isArray at h2
    split at h2
    · simp only at h
      intro ρ _ _
      rw [(array_ok h).1]
      exact goesRuns_nil fun Γ m Δ h => by simpa only [Stmt.Goes, AssignGoes, LeafGoes] using h
    · cases h2
  · replace h2 : value.isArray = false := by simpa using h2
    simp only at h
    split at h
    · simp [PE.isArray] at h2
    · split at h
      · split at h
        · split at h
          · exact random_goes h1 h2 h
          · cases h
        · exact random_goes h1 h2 h
        · cases h
      · split at h
        · exact random_goes h1 h2 h
        · have key : ctx = ["global"] ∧ r.1 = [] ∧ (target, value) ∈ r.2.constants := by
            unfold visitPy at h
            split at h; · cases h
            rename_i hg
            split at h; · cases h
            split at h
            · injection h with h; subst h; exact ⟨by simpa using hg, rfl, ‹_›⟩
            · injection h with h; subst h; exact ⟨by simpa using hg, rfl, by simp⟩
          obtain ⟨hg, h0, hmem⟩ := key
          intro ρ _ hconst
          rw [h0]
          refine goesRuns_nil fun Γ m Δ hF => ?_
          have hk := hconst hg _ hmem
          simp only [Stmt.Goes] at hF
          rw [assignGoes_leaf h1 h2] at hF
          split at hF
          · rename_i d _ hd; exact absurd rfl ((hk _ hd).1 d)
          · rename_i t _ ht; exact absurd rfl ((hk _ ht).2 t)
          · exact hF

theorem goesRuns_body {ρ : NS} {ts : List Tgt} {S : Measure Asg → Prop} {F : Scope → Measure Asg → Scope → Prop} (h : GoesRuns H c μ ρ ts S F) {as : List Arg} {p : Cmd}
    (h1 : Tgt.runL H c ρ ts = .ok as) (h2 : oneCmd as = .ok p) : ∀ (m : Measure Asg) [IsFiniteMeasure m], S m → ∀ Γ Δ, F Γ m Δ → Runs c μ Γ m p Δ := by
  rw [oneCmd_ok h2] at h1
  exact fun m _ hS Γ Δ hF => runsSeq_one (h [p] h1 m hS Γ Δ hF)

theorem for_goes {ctx : List String} {body : List Stmt} {st : VS} {r : List Tgt × VS} {x : String} {n0 n1 : PE} (hg : ctx ≠ ["global"])
    (hv : VisitOK H c μ ctx st r (fun ρ => Stmt.semL H c μ ρ body) (fun ρ => Stmt.SafeL H c L μ ρ body))
    (h : VisitGoes H c L μ ctx r (fun ρ => Stmt.SafeL H c L μ ρ body) (fun ρ => Stmt.GoesL H c μ ρ body)) :
    ∀ ctx', VisitGoes H c L μ ctx' ([.forr n0 n1 x r.1], r.2) (fun ρ => (Stmt.forr x n0 n1 body).Safe H c L μ ρ) (fun ρ => (Stmt.forr x n0 n1 body).Goes H c μ ρ) := by
  refine fun ctx' ρ hρ _ => goesRuns_one fun p hp m _ hS Γ Δ hF => ?_
  simp only [Tgt.run, bind, Except.bind] at hp
  split at hp; · cases hp
  rename_i o0 h0
  split at hp; · cases hp
  rename_i o1 h1
  split at hp
  · rename_i a b
    split at hp; · cases hp
    rename_i ms hms
    injection hp with hp; injection hp with hp; subst hp
    simp only [Stmt.Safe] at hS
    simp only [Stmt.Goes] at hF
    replace hS := hS a b h0 h1
    obtain ⟨G, rfl, hless, hF⟩ := hF a b h0 h1
    have key : ∀ k : ℕ, k ≤ (b - a).toNat → IsFiniteMeasure ((List.range k).foldl (fun m (k : ℕ) => Stmt.semL H c μ (ρ.bind x (.int (a + (k : ℤ)))) body m) m) ∧
        (List.range k).foldl (fun m (k : ℕ) => Cmd.sem μ (tabulate a ms (a + (k : ℤ))) m) m =
        (List.range k).foldl (fun m (k : ℕ) => Stmt.semL H c μ (ρ.bind x (.int (a + (k : ℤ)))) body m) m := by
      intro k
      induction k with
      | zero => intro _; exact ⟨by simpa, rfl⟩
      | succ k ih =>
        intro hk
        obtain ⟨i1, i2⟩ := ih (by omega)
        have hsafe := hS k (by omega)
        rw [List.range_succ, List.foldl_append, List.foldl_append, i2]
        refine ⟨Stmt.semL_finite body _ _ hsafe, ?_⟩
        obtain ⟨as, p1, p2⟩ := for_body hms (k := k) (by omega)
        exact (hv.runs _ (canonical_bind hρ (by simp) (by simp)) (fun hh => absurd hh hg)).one p1 p2 _ hsafe
    refine .less (.forr G fun k hk => ?_) hless
    obtain ⟨i1, i2⟩ := key k hk.le
    rw [i2]
    obtain ⟨as, p1, p2⟩ := for_body hms (k := k) hk
    exact goesRuns_body (h _ (canonical_bind hρ (by simp) (by simp)) (fun hh => absurd hh hg)) p1 p2 _ (hS k hk) _ _ (hF k hk)
  · cases hp

theorem switch_goes {ctx : List String} {body : List Stmt} {r : List Tgt × VS} {i : Option String} {x : String} {sym vals : PE} (hg : ctx ≠ ["global"])
    (h : VisitGoes H c L μ ctx r (fun ρ => Stmt.SafeL H c L μ ρ body) (fun ρ => Stmt.GoesL H c μ ρ body)) :
    ∀ ctx', VisitGoes H c L μ ctx' ([.switch sym vals i x r.1], r.2) (fun ρ => (Stmt.switch i x sym vals body).Safe H c L μ ρ)
      (fun ρ => (Stmt.switch i x sym vals body).Goes H c μ ρ) := by
  refine fun ctx' ρ hρ _ => goesRuns_one fun p hp m _ hS Γ Δ hF => ?_
  simp only [Tgt.run, bind, Except.bind] at hp
  split at hp; · cases hp
  rename_i o0 h0
  split at hp; · cases hp
  rename_i o1 h1
  split at hp
  · rename_i t vs
    split at hp; · cases hp
    rename_i ss hss
    split at hp; · cases hp
    rename_i ms hms
    injection hp with hp; injection hp with hp; subst hp
    simp only [Stmt.Safe] at hS
    simp only [Stmt.Goes] at hF
    replace hS := hS t vs h0 h1
    obtain ⟨⟨X, rfl, hX, hcases⟩, hne, htall, hcov, hF⟩ := hF t vs h0 h1
    have hcs := hcases ss hss
    replace hss := mapM_ok hss
    replace hms := mapM_ok hms
    have e1 : caseSets (.id X) ss = vs.map (fun v => {ω | CaseHolds ω (.id X) v}) := by
      clear hS hF hms h1 hcov hcs hcases
      induction hss with
      | nil => rfl
      | cons h1 _ ih =>
        simp only [caseSets, List.map_cons] at ih ⊢
        rw [ih]
        congr 1
        ext ω
        exact swVal_holds h1 (.id X) ω
    refine .switch hX hcs ?_ ?_ hne htall ?_
    · rw [← hms.length_eq, ← hss.length_eq]; simp
    · rw [e1]
      filter_upwards [hcov] with ω hω
      obtain ⟨v, hv, hω⟩ := hω
      exact ⟨_, List.mem_map_of_mem hv, hω⟩
    rw [e1]
    intro q hq h3
    obtain ⟨k, hk⟩ := List.mem_iff_getElem?.1 hq
    rw [List.getElem?_zip_eq_some] at hk
    obtain ⟨hp, hE⟩ := hk
    have hl : k < vs.length := by
      have := (List.getElem?_eq_some_iff.1 hE).1
      simpa [firsts_length] using this
    have hl2 : k < ms.length := by rw [← hms.length_eq]; simpa using hl
    have hl4 : k < vs.zipIdx.length := by simpa using hl
    have hl3 : k < ss.length := by rw [← hss.length_eq]; exact hl
    have q1 := (List.forall₂_iff_get.1 hms).2 k hl4 hl2
    have q2 := (List.forall₂_iff_get.1 hss).2 k hl hl3
    simp only [List.get_eq_getElem, List.getElem_zipIdx, Nat.zero_add, bindCase_eq, bind, Except.bind] at q1 q2
    split at q1; · cases q1
    rename_i as has
    obtain ⟨c1, c2⟩ := swVal_closed q2
    rw [List.getElem?_eq_getElem hl2] at hp
    injection hp with hp; rw [← hp]
    exact goesRuns_body (h _ (bindCase_canonical hρ c1 c2) (fun hh => absurd hh hg)) has q1 _ (hS k vs[k] (List.getElem?_eq_getElem hl) q.2 hE) _ _
      (hF k vs[k] (List.getElem?_eq_getElem hl) q.2 hE h3)
  · cases hp

/-- **The visitor.** -/
theorem visit_goes : ∀ (n : ℕ) (ctx : List String), GoesStmt H c L μ ctx (visit D n ctx) := by
  intro n
  induction n with
  | zero => intro ctx s st r h; simp only [visit] at h; cases h
  | succ n ih =>
    intro ctx s st r h
    have ihv : ∀ ctx, VisitsStmt H c L μ ctx (visit D n ctx) := visit_ok n
    have happ : ∀ w : String, w ≠ "global" → ctx ++ [w] ≠ ["global"] := by
      intro w hw h
      have := congrArg List.getLast? h
      simp at this
      exact hw this
    cases s with
    | assign target e =>
      by_cases h1 : e.isIf = true
      · cases e <;> simp [PE.isIf] at h1
        rename_i t a b
        simp only [visit] at h
        intro ρ hρ hcon ms hms m _ hS Γ Δ hF
        simp only [Stmt.Safe] at hS
        simp only [Stmt.Goes] at hF
        exact ih ctx _ _ _ h ρ hρ hcon ms hms m (unrollIfExp_safe target t a b m hS) Γ Δ (unrollIfExp_goes target t a b Γ m Δ hF)
      · have h2 : visit D (n + 1) ctx (.assign target e) st = visitAssign D ctx target e st := by
          cases e <;> first | (simp [PE.isIf] at h1; done) | simp only [visit]
        rw [h2] at h
        exact assign_goes (by simpa using h1) h
    | ifs t b o =>
      simp only [visit, bind, Except.bind] at h
      split at h; · cases h
      split at h; · cases h
      rename_i q hq
      injection h with h; subst h
      exact ifelse_goes ihv ih hq
    | forr x n0 n1 body =>
      simp only [visit, bind, Except.bind] at h
      split at h; · cases h
      rename_i q hq
      injection h with h; subst h
      exact for_goes (happ "for" (by decide)) (module_ok (ihv _) hq).2 (module_goes (ihv _) (ih _) hq) ctx
    | switch i x sym vals body =>
      simp only [visit, bind, Except.bind] at h
      split at h; · cases h
      rename_i q hq
      injection h with h; subst h
      exact switch_goes (happ "switch" (by decide)) (module_goes (ihv _) (ih _) hq) ctx
    | condition e =>
      simp only [visit] at h
      injection h with h; subst h
      refine fun ρ hρ _ => goesRuns_one fun p hp m _ hS Γ Δ hF => ?_
      simp only [Tgt.run, bind, Except.bind] at hp
      split at hp; · cases hp
      rename_i v hv
      split at hp
      · injection hp with hp; injection hp with hp; subst hp
        simp only [Stmt.Goes] at hF
        simp only [Stmt.Safe] at hS
        rename_i e'
        refine .less (.condition (hF.1 e' hv) ?_) hF.2.2
        obtain ⟨e'', he'', -, h2⟩ := plain_ok hS.plain hv
        injection he'' with he''; subst he''
        have : ∀ᵐ ω ∂m, ω ∈ {ω | e'.holds ω} ↔ ω ∈ e.sat H c ρ := by
          filter_upwards [hS.typed] with ω hω
          exact h2 ω hω
        rw [measure_ae this]
        exact hF.2.1
      · cases hp
    | constrain items =>
      intro ρ _ _ ms _ m _ _ Γ Δ hF
      simp only [Stmt.Goes] at hF
    | call f args =>
      intro ρ _ _ ms _ m _ hS _
      simp only [Stmt.Safe] at hS
    | other body =>
      intro ρ _ _ ms _ m _ hS _
      simp only [Stmt.Safe] at hS
    | pass =>
      simp only [visit] at h
      injection h with h; subst h
      exact fun ρ _ _ => goesRuns_nil fun Γ m Δ h => by simpa only [Stmt.Goes] using h

end

end Sppl
