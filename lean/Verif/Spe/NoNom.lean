import Verif.Spe.SubstMade

set_option linter.all false

/-!
# Events without string comparisons (helper lemmas)
-/

namespace Sppl
open Classical

mutual
/-- No comparison with strings occurs in the conditions of an expression. -/
inductive Tr.NoNom : Tr → Prop
  | id (s) : Tr.NoNom (.id s)
  | radical {t n} : Tr.NoNom t → Tr.NoNom (.radical t n)
  | exp {t n} : Tr.NoNom t → Tr.NoNom (.exp t n)
  | log {t n} : Tr.NoNom t → Tr.NoNom (.log t n)
  | abs {t} : Tr.NoNom t → Tr.NoNom (.abs t)
  | recip {t} : Tr.NoNom t → Tr.NoNom (.recip t)
  | poly {t cs} : Tr.NoNom t → Tr.NoNom (.poly t cs)
  | pw {ts es ds} : (∀ t ∈ ts, Tr.NoNom t) → (∀ e ∈ es, Ev.NoNom e) → Tr.NoNom (.pw ts es ds)
/-- No comparison with strings occurs in an event. -/
inductive Ev.NoNom : Ev → Prop
  | ivl {t i} : Tr.NoNom t → Ev.NoNom (.ivl t i)
  | fin {t v} : Tr.NoNom t → Ev.NoNom (.fin t v)
  | or {es} : (∀ e ∈ es, Ev.NoNom e) → Ev.NoNom (.or es)
  | and {es} : (∀ e ∈ es, Ev.NoNom e) → Ev.NoNom (.and es)
end

theorem noNom_subs {c : Ctx} {n : ℕ} {env : Env} (hk : ∀ s, (env.get s).NoNom) :
    (∀ t : Tr, ∀ r, t.subs c n env = .ok r → t.NoNom → r.NoNom) ∧
    (∀ e : Ev, ∀ r, e.subs c n env = .ok r → e.NoNom → r.NoNom) := by
  apply sizeInd
  · intro t ihT ihE r h hm
    cases t with
    | id s =>
      simp [Tr.subs] at h; subst h
      exact hk s
    | pw ts es ds =>
      by_cases hin : exprInEnv (Tr.symbolsL ts) env
      · simp only [Tr.subs, hin, not_true, if_false, bind, Except.bind] at h
        split at h; · cases h
        rename_i ts' hts
        split at h; · cases h
        rename_i es' hes
        obtain ⟨-, -, -, hsym, ds', -, -, rfl⟩ := mkPiecewise_ok h
        have hT := Tr.subsL_ok hts
        have hE := Ev.subsL_ok hes
        cases hm with
        | pw h1 h2 =>
          refine .pw (fun t' ht' => ?_) (fun t' ht' => ?_)
          · obtain ⟨a, ha, hab⟩ := forall₂_mem_right hT ht'
            exact ihT a (Tr.sizeOf_pw_left ha) t' hab (h1 a ha)
          · obtain ⟨a, ha, hab⟩ := forall₂_mem_right hE ht'
            exact ihE a (Tr.sizeOf_pw_right ha) t' hab (h2 a ha)
      · simp only [Tr.subs, hin, not_false_iff, if_true, Except.ok.injEq] at h
        subst h; exact hm
    | poly t cs =>
      by_cases hin : exprInEnv t.symbols env
      · simp only [Tr.subs, hin, not_true, if_false, bind, Except.bind] at h
        split at h; · cases h
        rename_i t' ht'
        obtain ⟨-, rfl⟩ := mkPoly_ok h
        cases hm with
        | poly h1 => exact .poly (ihT t (by simp; try omega) t' ht' h1)
      · simp only [Tr.subs, hin, not_false_iff, if_true, Except.ok.injEq] at h
        subst h; exact hm
    | radical t d =>
      by_cases hin : exprInEnv t.symbols env
      · simp only [Tr.subs, hin, not_true, if_false, bind, Except.bind] at h
        split at h; · cases h
        rename_i t' ht'
        cases h
        cases hm with
        | radical h1 => exact .radical (ihT t (by simp; try omega) t' ht' h1)
      · simp only [Tr.subs, hin, not_false_iff, if_true, Except.ok.injEq] at h
        subst h; exact hm
    | exp t d =>
      by_cases hin : exprInEnv t.symbols env
      · simp only [Tr.subs, hin, not_true, if_false, bind, Except.bind] at h
        split at h; · cases h
        rename_i t' ht'
        cases h
        cases hm with
        | exp h1 => exact .exp (ihT t (by simp; try omega) t' ht' h1)
      · simp only [Tr.subs, hin, not_false_iff, if_true, Except.ok.injEq] at h
        subst h; exact hm
    | log t d =>
      by_cases hin : exprInEnv t.symbols env
      · simp only [Tr.subs, hin, not_true, if_false, bind, Except.bind] at h
        split at h; · cases h
        rename_i t' ht'
        cases h
        cases hm with
        | log h1 => exact .log (ihT t (by simp; try omega) t' ht' h1)
      · simp only [Tr.subs, hin, not_false_iff, if_true, Except.ok.injEq] at h
        subst h; exact hm
    | abs t =>
      by_cases hin : exprInEnv t.symbols env
      · simp only [Tr.subs, hin, not_true, if_false, bind, Except.bind] at h
        split at h; · cases h
        rename_i t' ht'
        cases h
        cases hm with
        | abs h1 => exact .abs (ihT t (by simp; try omega) t' ht' h1)
      · simp only [Tr.subs, hin, not_false_iff, if_true, Except.ok.injEq] at h
        subst h; exact hm
    | recip t =>
      by_cases hin : exprInEnv t.symbols env
      · simp only [Tr.subs, hin, not_true, if_false, bind, Except.bind] at h
        split at h; · cases h
        rename_i t' ht'
        cases h
        cases hm with
        | recip h1 => exact .recip (ihT t (by simp; try omega) t' ht' h1)
      · simp only [Tr.subs, hin, not_false_iff, if_true, Except.ok.injEq] at h
        subst h; exact hm
  · intro e ihT ihE r h hm
    cases e with
    | nom t d => cases hm
    | ivl t d =>
      by_cases hin : exprInEnv t.symbols env
      · simp only [Ev.subs, hin, not_true, if_false, bind, Except.bind] at h
        split at h; · cases h
        rename_i t' ht'
        cases h
        cases hm with
        | ivl h1 => exact .ivl (ihT t (by simp; try omega) t' ht' h1)
      · simp only [Ev.subs, hin, not_false_iff, if_true, Except.ok.injEq] at h
        subst h; exact hm
    | fin t d =>
      by_cases hin : exprInEnv t.symbols env
      · simp only [Ev.subs, hin, not_true, if_false, bind, Except.bind] at h
        split at h; · cases h
        rename_i t' ht'
        cases h
        cases hm with
        | fin h1 => exact .fin (ihT t (by simp; try omega) t' ht' h1)
      · simp only [Ev.subs, hin, not_false_iff, if_true, Except.ok.injEq] at h
        subst h; exact hm
    | or es =>
      by_cases hin : exprInEnv (Ev.symbolsL es) env
      · simp only [Ev.subs, hin, not_true, if_false, bind, Except.bind] at h
        split at h; · cases h
        rename_i es' hes
        cases h
        have hE := Ev.subsL_ok hes
        cases hm with
        | or h2 =>
          refine .or fun t' ht' => ?_
          obtain ⟨a, ha, hab⟩ := forall₂_mem_right hE ht'
          exact ihE a (Ev.sizeOf_or ha) t' hab (h2 a ha)
      · simp only [Ev.subs, hin, not_false_iff, if_true, Except.ok.injEq] at h
        subst h; exact hm
    | and es =>
      by_cases hin : exprInEnv (Ev.symbolsL es) env
      · simp only [Ev.subs, hin, not_true, if_false, bind, Except.bind] at h
        split at h; · cases h
        rename_i es' hes
        cases h
        have hE := Ev.subsL_ok hes
        cases hm with
        | and h2 =>
          refine .and fun t' ht' => ?_
          obtain ⟨a, ha, hab⟩ := forall₂_mem_right hE ht'
          exact ihE a (Ev.sizeOf_and ha) t' hab (h2 a ha)
      · simp only [Ev.subs, hin, not_false_iff, if_true, Except.ok.injEq] at h
        subst h; exact hm

theorem noNom_substitute {c : Ctx} {n : ℕ} {env : Env} (hk : ∀ s, (env.get s).NoNom) :
    ∀ (k : ℕ) (e r : Ev), Ev.substitute c n env k e = .ok r → e.NoNom → r.NoNom := by
  intro k
  induction k with
  | zero =>
    intro e r hr h
    simp only [Ev.substitute] at hr
    split at hr
    · cases hr
    · cases hr; exact h
  | succ k ih =>
    intro e r hr h
    simp only [Ev.substitute] at hr
    split at hr
    · simp only [bind, Except.bind] at hr
      split at hr; · cases hr
      rename_i e' he'
      exact ih e' r hr ((noNom_subs hk).2 e e' he' h)
    · cases hr; exact h

theorem Env.get_noNom {env : Env} (h : ∀ p ∈ env, p.2.NoNom) (s : String) : (env.get s).NoNom := by
  unfold Env.get
  cases hl : env.lookup s with
  | none => exact .id s
  | some t => exact h (s, t) (mem_of_lookup hl)

mutual
theorem Tr.MadeG.strong {c : Ctx} : ∀ {t : Tr}, t.MadeG true c → t.NoNom → t.MadeG false c
  | _, .id s, _ => .id s
  | _, .radical h a, .radical n => .radical (h.strong n) a
  | _, .exp h a, .exp n => .exp (h.strong n) a
  | _, .log h a, .log n => .log (h.strong n) a
  | _, .abs h, .abs n => .abs (h.strong n)
  | _, .recip h, .recip n => .recip (h.strong n)
  | _, .poly h a, .poly n => .poly (h.strong n) a
  | _, .pw h1 h2 h3, .pw n1 n2 => .pw (fun t ht => (h1 t ht).strong (n1 t ht)) (fun t ht => (h2 t ht).strong (n2 t ht)) h3
theorem Ev.MadeG.strong {c : Ctx} : ∀ {e : Ev}, e.MadeG true c → e.NoNom → e.MadeG false c
  | _, .ivl h a, .ivl n => .ivl (h.strong n) a
  | _, .fin h a, .fin n => .fin (h.strong n) a
  | _, .or h1 h2, .or n => .or h1 (fun t ht => (h2 t ht).strong (n t ht))
  | _, .and h1 h2, .and n => .and h1 (fun t ht => (h2 t ht).strong (n t ht))
end

end Sppl
