import Verif.Comp.UnrollLemmas

set_option linter.all false

/-!
# Lemmas on the visitor
-/

namespace Sppl
open Classical MeasureTheory
open scoped ENNReal ProbabilityTheory

section
variable {H : PyHost} {c : Ctx} {L : Lib} {μ : Dist → Measure ℝ} {D : List String}

/-- What is written means `f`, on the distributions that `S` describes. -/
def RunsAs (H : PyHost) (c : Ctx) (μ : Dist → Measure ℝ) (ρ : NS) (ts : List Tgt) (f : Measure Asg → Measure Asg) (S : Measure Asg → Prop) : Prop :=
  ∀ as, Tgt.runL H c ρ ts = .ok as → ∃ ms, as = ms.map Arg.cmd ∧ ∀ (m : Measure Asg) [IsFiniteMeasure m], S m → (Cmd.semL μ ms).foldl (fun m f => f m) m = f m

/-- What is shown of a visit: at most one entry is written, it has the right meaning, and constants are only added. -/
structure VisitOK (H : PyHost) (c : Ctx) (μ : Dist → Measure ℝ) (ctx : List String) (st : VS) (r : List Tgt × VS) (f : NS → Measure Asg → Measure Asg)
    (S : NS → Measure Asg → Prop) : Prop where
  mono : ∀ p ∈ st.constants, p ∈ r.2.constants
  runs : ∀ ρ : NS, ρ.Canonical → (ctx = ["global"] → ∀ p ∈ r.2.constants, p.2.IsConst H c ρ) → RunsAs H c μ ρ r.1 (f ρ) (S ρ)

theorem runsAs_nil {ρ : NS} {f : Measure Asg → Measure Asg} {S : Measure Asg → Prop} (h : ∀ m, S m → f m = m) : RunsAs H c μ ρ [] f S := by
  intro as has
  simp only [Tgt.runL] at has
  injection has with has; subst has
  exact ⟨[], rfl, fun m _ hm => by simpa [Cmd.semL] using (h m hm).symm⟩

theorem runL_one {ρ : NS} {t : Tgt} {as : List Arg} (h : Tgt.runL H c ρ [t] = .ok as) : ∃ a, t.run H c ρ = .ok a ∧ as = [a] := by
  simp only [Tgt.runL, bind, Except.bind] at h
  split at h; · cases h
  rename_i a ha
  injection h with h
  exact ⟨a, ha, h.symm⟩

theorem runL_append {ρ : NS} {ts us : List Tgt} {as : List Arg} (h : Tgt.runL H c ρ (ts ++ us) = .ok as) :
    ∃ a b, Tgt.runL H c ρ ts = .ok a ∧ Tgt.runL H c ρ us = .ok b ∧ as = a ++ b := by
  induction ts generalizing as with
  | nil => exact ⟨[], as, by simp only [Tgt.runL], h, rfl⟩
  | cons t ts ih =>
    simp only [List.cons_append, Tgt.runL, bind, Except.bind] at h
    split at h; · cases h
    rename_i x hx
    split at h; · cases h
    rename_i y hy
    injection h with h; subst h
    obtain ⟨a, b, h1, h2, rfl⟩ := ih hy
    refine ⟨x :: a, b, ?_, h2, rfl⟩
    simp only [Tgt.runL, bind, Except.bind, hx, h1]

theorem runL_length {ρ : NS} {ts : List Tgt} {as : List Arg} (h : Tgt.runL H c ρ ts = .ok as) : as.length = ts.length := by
  induction ts generalizing as with
  | nil => simp only [Tgt.runL] at h; injection h with h; subst h; rfl
  | cons t ts ih =>
    simp only [Tgt.runL, bind, Except.bind] at h
    split at h; · cases h
    split at h; · cases h
    rename_i y hy
    injection h with h; subst h
    simp [ih hy]

/-- One command with the right meaning. -/
theorem runsAs_one {ρ : NS} {t : Tgt} {f : Measure Asg → Measure Asg} {S : Measure Asg → Prop}
    (h : ∀ a, t.run H c ρ = .ok a → ∃ p : Cmd, a = .cmd p ∧ ∀ (m : Measure Asg) [IsFiniteMeasure m], S m → p.sem μ m = f m) : RunsAs H c μ ρ [t] f S := by
  intro as has
  obtain ⟨a, ha, rfl⟩ := runL_one has
  obtain ⟨p, rfl, hp⟩ := h a ha
  exact ⟨[p], rfl, fun m _ hm => by simpa [Cmd.semL] using hp m hm⟩

theorem semL_append (ps qs : List Cmd) : Cmd.semL μ (ps ++ qs) = Cmd.semL μ ps ++ Cmd.semL μ qs := by
  induction ps with
  | nil => simp [Cmd.semL]
  | cons p ps ih => simp [Cmd.semL, ih]

theorem allCmds_map (ms : List Cmd) : allCmds (ms.map Arg.cmd) = .ok ms := by
  induction ms with
  | nil => rfl
  | cons m ms ih => simp [allCmds, ih, bind, Except.bind]

/-! ## Assignments -/

theorem target_var {ρ : NS} (hρ : ρ.Canonical) {target : Target} {x : Obj} {X : String} (h : target.expr.eval H c ρ = .ok x) (hX : x.var = .ok X) :
    target.var H c ρ = some X := by
  have hx : x = .tr (.id X) := by
    unfold Obj.var at hX
    split at hX
    · injection hX with hX; subst hX; rfl
    · cases hX
  subst hx
  cases target with
  | name y =>
    simp only [Target.expr, PE.eval] at h
    split at h
    · rename_i o ho
      injection h with h; subst h
      rw [hρ.name _ _ ho]; rfl
    · cases h
  | sub y i =>
    simp only [Target.expr, PE.eval, bind, Except.bind] at h
    split at h; · cases h
    rename_i k hk
    split at h
    · rename_i vs z hvs
      split at h
      · rename_i o ho
        split at h
        · injection h with h; subst h
          simp only [Target.var, hk]
          rw [hρ.elem _ _ _ _ hvs ho]
        · cases h
      · cases h
    · cases h
    · cases h

theorem declare_constants {ctx : List String} {target : Target} {st st' : VS} (h : declare ctx target st = .ok st') : st'.constants = st.constants := by
  unfold declare at h
  split at h
  · split at h; · cases h
    split at h
    · split at h
      · cases h
      · injection h with h; subst h; rfl
    · split at h
      · injection h with h; subst h; rfl
      · cases h
  · split at h
    · injection h with h; subst h; rfl
    · cases h

theorem random_ok {ctx : List String} {sample : Bool} {target : Target} {value : PE} {st : VS} {r : List Tgt × VS} (h1 : value.isIf = false) (h2 : value.isArray = false)
    (h : visitRandom ctx sample target value st = .ok r) : r.1.length = 1 ∧
    VisitOK H c μ ctx st r (fun ρ => (Stmt.assign target value).sem H c μ ρ) (fun ρ => (Stmt.assign target value).Safe H c L μ ρ) := by
  simp only [visitRandom, bind, Except.bind] at h
  split at h; · cases h
  rename_i st' hst
  injection h with h; subst h
  refine ⟨rfl, ?_, ?_⟩
  · intro p hp
    rw [← declare_constants hst] at hp
    exact hp
  · intro ρ hρ _
    refine runsAs_one fun a ha => ?_
    by_cases hne : value.NoEq
    · rw [value.rewrite_noEq hne] at ha
      cases sample with
      | true =>
        simp only [if_true, Tgt.run, bind, Except.bind] at ha
        split at ha; · cases ha
        rename_i x hx
        split at ha; · cases ha
        rename_i X hX
        split at ha; · cases ha
        rename_i v hv
        split at ha
        · rename_i d
          injection ha with ha; subst ha
          refine ⟨_, rfl, fun m _ hm => ?_⟩
          simp only [Stmt.sem, Cmd.sem]
          rw [assignSem_leaf h1 h2, target_var hρ hx hX, hv]
        · cases ha
      | false =>
        simp only [Bool.false_eq_true, if_false, Tgt.run, bind, Except.bind] at ha
        split at ha; · cases ha
        rename_i x hx
        split at ha; · cases ha
        rename_i X hX
        split at ha; · cases ha
        rename_i v hv
        split at ha
        · rename_i d
          injection ha with ha; subst ha
          refine ⟨_, rfl, fun m _ hm => ?_⟩
          simp only [Stmt.sem, Cmd.sem]
          rw [assignSem_leaf h1 h2, target_var hρ hx hX, hv]
        · cases ha
    · -- not covered: something is written, but nothing is claimed
      have hS : ∀ m, ¬ (Stmt.assign target value).Safe H c L μ ρ m := by
        intro m hm
        simp only [Stmt.Safe] at hm
        rw [assignSafe_leaf h1] at hm
        exact hne hm.1
      have : ∃ p : Cmd, a = .cmd p := by
        cases sample <;> simp only [if_true, Bool.false_eq_true, if_false, Tgt.run, bind, Except.bind] at ha
        all_goals
          split at ha; · cases ha
          split at ha; · cases ha
          split at ha; · cases ha
          split at ha
          · injection ha with ha; exact ⟨_, ha.symm⟩
          · cases ha
      obtain ⟨p, rfl⟩ := this
      exact ⟨p, rfl, fun m _ hm => absurd hm (hS m)⟩

theorem py_ok {ctx : List String} {target : Target} {value : PE} {st : VS} {r : List Tgt × VS} (h1 : value.isIf = false) (h2 : value.isArray = false)
    (h : visitPy ctx target value st = .ok r) : r.1 = [] ∧
    VisitOK H c μ ctx st r (fun ρ => (Stmt.assign target value).sem H c μ ρ) (fun ρ => (Stmt.assign target value).Safe H c L μ ρ) := by
  have key : ctx = ["global"] ∧ r.1 = [] ∧ (∀ p ∈ st.constants, p ∈ r.2.constants) ∧ (target, value) ∈ r.2.constants := by
    unfold visitPy at h
    split at h; · cases h
    rename_i hg
    split at h; · cases h
    split at h
    · injection h with h; subst h; exact ⟨by simpa using hg, rfl, fun p hp => hp, ‹_›⟩
    · injection h with h; subst h; exact ⟨by simpa using hg, rfl, fun p hp => by simp [hp], by simp⟩
  obtain ⟨hg, h0, hmono, hmem⟩ := key
  refine ⟨h0, hmono, fun ρ _ hconst => ?_⟩
  rw [h0]
  refine runsAs_nil fun m _ => ?_
  have hk := hconst hg _ hmem
  simp only [Stmt.sem]
  rw [assignSem_leaf h1 h2]
  split
  · rename_i d _ hd; exact absurd rfl ((hk _ hd).1 d)
  · rename_i t _ ht; exact absurd rfl ((hk _ ht).2 t)
  · rfl

theorem array_ok {ctx : List String} {target : Target} {args : List PE} {st : VS} {r : List Tgt × VS} (h : visitArray ctx target args st = .ok r) : r.1 = [] ∧
    r.2.constants = st.constants := by
  unfold visitArray at h
  split at h; · cases h
  split at h; · cases h
  split at h; · cases h
  split at h
  · injection h with h; subst h; exact ⟨rfl, rfl⟩
  · cases h

theorem assign_ok {ctx : List String} {target : Target} {value : PE} {st : VS} {r : List Tgt × VS} (h1 : value.isIf = false)
    (h : visitAssign D ctx target value st = .ok r) : r.1.length ≤ 1 ∧
    VisitOK H c μ ctx st r (fun ρ => (Stmt.assign target value).sem H c μ ρ) (fun ρ => (Stmt.assign target value).Safe H c L μ ρ) := by
  have lift : ∀ (ds : List String) {n}, (r.1.length ≤ n ∧ VisitOK H c μ ctx { st with distributions := ds } r (fun ρ => (Stmt.assign target value).sem H c μ ρ)
      (fun ρ => (Stmt.assign target value).Safe H c L μ ρ)) → n ≤ 1 → r.1.length ≤ 1 ∧ VisitOK H c μ ctx st r (fun ρ => (Stmt.assign target value).sem H c μ ρ)
      (fun ρ => (Stmt.assign target value).Safe H c L μ ρ) := fun ds n hh hn => ⟨hh.1.trans hn, hh.2.mono, hh.2.runs⟩
  unfold visitAssign at h
  by_cases h2 : value.isArray = true
  · unfold PE.isArray at h2
    split at h2
    · simp only at h
      obtain ⟨k1, k2⟩ := array_ok h
      refine ⟨by simp [k1], fun p hp => by rw [k2]; exact hp, fun ρ _ _ => ?_⟩
      rw [k1]
      refine runsAs_nil fun m _ => ?_
      simp only [Stmt.sem, assignSem]
    · cases h2
  · replace h2 : value.isArray = false := by simpa using h2
    simp only at h
    split at h
    · simp [PE.isArray] at h2
    · split at h
      · split at h
        · split at h
          · exact lift _ (have k := random_ok h1 h2 h; ⟨k.1.le, k.2⟩) le_rfl
          · cases h
        · exact lift _ (have k := random_ok h1 h2 h; ⟨k.1.le, k.2⟩) le_rfl
        · cases h
      · split at h
        · exact lift _ (have k := random_ok h1 h2 h; ⟨k.1.le, k.2⟩) le_rfl
        · exact lift _ (n := 0) (have k := py_ok h1 h2 h; ⟨by simp [k.1], k.2⟩) (by simp)

end

end Sppl
