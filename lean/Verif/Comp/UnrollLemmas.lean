import Verif.Comp.SemLemmas

set_option linter.all false

/-!
# Lemmas on `unroll_if` and `unroll_ifexp`
-/

namespace Sppl
open Classical MeasureTheory
open scoped ENNReal ProbabilityTheory

section
variable {H : PyHost} {c : Ctx} {L : Lib} {μ : Dist → Measure ℝ} {ρ : NS}

/-- The set and the function that stand for a branch. -/
structure BranchRel (H : PyHost) (c : Ctx) (L : Lib) (μ : Dist → Measure ℝ) (ρ : NS) (b : PE × List Stmt) (q : Set Asg × (Measure Asg → Measure Asg)) : Prop where
  meas : MeasurableSet q.1
  yes : b.1 = PE.yes → q.1 = Set.univ
  test : b.1.Plain H c ρ → ∀ ω, b.1.TypedAt H c ρ ω → (ω ∈ q.1 ↔ b.1.Means H c ρ ω)
  body : ∀ (m : Measure Asg) [IsFiniteMeasure m], Stmt.SafeL H c L μ ρ b.2 m → q.2 m = Stmt.semL H c μ ρ b.2 m

theorem BranchRel.ae {b : PE × List Stmt} {q : Set Asg × (Measure Asg → Measure Asg)} (h : BranchRel H c L μ ρ b q) {m : Measure Asg} (ht : TestOK H c ρ m b.1) :
    ∀ᵐ ω ∂m, ω ∈ q.1 ↔ ω ∈ b.1.sat H c ρ := by
  filter_upwards [ht.typed] with ω hω
  exact h.test ht.plain ω hω

theorem nest_unroll {t : PE} {b o : List Stmt} : ∀ {qs : List (Set Asg × (Measure Asg → Measure Asg))}, List.Forall₂ (BranchRel H c L μ ρ) (unrollIf t b o) qs →
    ∀ (m : Measure Asg) [IsFiniteMeasure m], (Stmt.ifs t b o).Safe H c L μ ρ m → nest qs m = (Stmt.ifs t b o).sem H c μ ρ m := by
  fun_induction unrollIf t b o with
  | case1 t b =>
    intro qs h m _ hs
    obtain ⟨q, qs', hq, h', rfl⟩ := List.forall₂_cons_left_iff.1 h
    cases h'
    simp only [Stmt.Safe] at hs
    simp only [nest, Stmt.sem]
    rw [choice_ae (hq.ae hs.1)]
    exact choice_congr (hq.body _ hs.2.1) (fun h0 => absurd (hs.2.2.2 trivial) h0)
  | case2 t b t' b' o' ih =>
    intro qs h m _ hs
    obtain ⟨q, qs', hq, h', rfl⟩ := List.forall₂_cons_left_iff.1 h
    simp only [Stmt.Safe] at hs
    rw [Stmt.sem]
    simp only [nest]
    rw [choice_ae (hq.ae hs.1)]
    refine choice_congr (hq.body _ hs.2.1) (fun _ => ?_)
    have := hs.2.2.1
    simp only [Stmt.SafeL, and_true] at this
    simp only [Stmt.semL]
    exact ih h' _ this
  | case3 t b o h1 h2 =>
    intro qs h m _ hs
    obtain ⟨q, qs', hq, h', rfl⟩ := List.forall₂_cons_left_iff.1 h
    obtain ⟨q', qs'', hq', h'', rfl⟩ := List.forall₂_cons_left_iff.1 h'
    cases h''
    simp only [Stmt.Safe] at hs
    rw [Stmt.sem]
    simp only [nest]
    rw [choice_ae (hq.ae hs.1)]
    refine choice_congr (hq.body _ hs.2.1) (fun h0 => ?_)
    have := ProbabilityTheory.cond_isProbabilityMeasure (μ := m) h0
    rw [hq'.yes rfl, choice_univ]
    exact hq'.body _ hs.2.2.1

theorem unrollIfExp_leaf (target : Target) (t a : PE) {b : PE} (h : b.isIf = false) :
    unrollIfExp target t a b = .ifs t [.assign target a] [.assign target b] := by
  unfold unrollIfExp
  split
  · simp [PE.isIf] at h
  · rfl

theorem unrollIfExp_sem (target : Target) : ∀ (t a b : PE) (m : Measure Asg),
    (unrollIfExp target t a b).sem H c μ ρ m = assignSem H c ρ μ target (.ifexp t a b) m
  | t, a, .ifexp t' a' b', m => by
    simp only [unrollIfExp]
    rw [Stmt.sem, assignSem]
    refine congr (congrArg (choice m (t.sat H c ρ)) ?_) ?_
    · funext m'; simp only [Stmt.semL, Stmt.sem]
    · funext m'
      simp only [Stmt.semL]
      exact unrollIfExp_sem target t' a' b' m'
  | t, a, b, m => by
    by_cases h : b.isIf = true
    · cases b <;> simp [PE.isIf] at h
      rename_i t' a' b'
      simp only [unrollIfExp]
      rw [Stmt.sem, assignSem]
      refine congr (congrArg (choice m (t.sat H c ρ)) ?_) ?_
      · funext m'; simp only [Stmt.semL, Stmt.sem]
      · funext m'
        simp only [Stmt.semL]
        exact unrollIfExp_sem target t' a' b' m'
    · rw [unrollIfExp_leaf target t a (by simpa using h), Stmt.sem, assignSem]
      refine congr (congrArg (choice m (t.sat H c ρ)) ?_) ?_
      · funext m'; simp only [Stmt.semL, Stmt.sem]
      · funext m'; simp only [Stmt.semL, Stmt.sem]

theorem unrollIfExp_safe (target : Target) : ∀ (t a b : PE) (m : Measure Asg), AssignSafe H c L μ ρ (.ifexp t a b) m → (unrollIfExp target t a b).Safe H c L μ ρ m := by
  have step : ∀ (t a b : PE) (m : Measure Asg) (s : Stmt), AssignSafe H c L μ ρ (.ifexp t a b) m →
      (∀ m', AssignSafe H c L μ ρ b m' → s.Safe H c L μ ρ m') → (Stmt.ifs t [.assign target a] [s]).Safe H c L μ ρ m := by
    intro t a b m s h hs
    rw [AssignSafe] at h
    simp only [Stmt.Safe, Stmt.SafeL, and_true, reduceCtorEq, List.cons_ne_self, false_implies]
    exact ⟨h.1, h.2.1, hs _ h.2.2⟩
  intro t a b
  fun_induction unrollIfExp target t a b with
  | case1 t a t' a' b' ih => exact fun m h => step t a _ m _ h (fun m' h' => ih m' h')
  | case2 t a b hb => exact fun m h => step t a b m _ h (fun m' h' => by simpa only [Stmt.Safe] using h')

end

end Sppl
