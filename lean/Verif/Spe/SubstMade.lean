import Verif.Events.MadeLemmas

set_option linter.all false

/-!
# Substitution keeps events well made and regular (helper lemmas)
-/

namespace Sppl
open Classical

/-- What one substitution step keeps. -/
structure KeepT (c : Ctx) (env : Env) (t r : Tr) : Prop where
  made : (∀ s, (env.get s).MadeG true c) → t.MadeG true c → r.MadeG true c
  reg : ∀ ω : Asg, (∀ s, (env.get s).eval ω = ω s) → (∀ s, (env.get s).Regular ω) → t.Regular ω → r.Regular ω

/-- See `KeepT`. -/
structure KeepE (c : Ctx) (env : Env) (t r : Ev) : Prop where
  made : (∀ s, (env.get s).MadeG true c) → t.MadeG true c → r.MadeG true c
  reg : ∀ ω : Asg, (∀ s, (env.get s).eval ω = ω s) → (∀ s, (env.get s).Regular ω) → t.Regular ω → r.Regular ω

theorem activeRegular_mono {ps qs : List Prop} {bs : List Bool} (h : List.Forall₂ (fun p q => p → q) ps qs) (hp : activeRegular ps bs) :
    activeRegular qs bs := by
  induction h generalizing bs with
  | nil => cases bs <;> trivial
  | @cons p q ps qs h1 _ ih =>
    cases bs with
    | nil => trivial
    | cons b bs => exact ⟨fun hb => h1 (hp.1 hb), ih hp.2⟩

theorem forall₂_map' {α β γ δ : Type} {R : α → β → Prop} {S : γ → δ → Prop} {l : List α} {r : List β} (h : List.Forall₂ R l r) {f : α → γ} {g : β → δ}
    (hf : ∀ a ∈ l, ∀ b, R a b → S (f a) (g b)) : List.Forall₂ S (l.map f) (r.map g) := by
  induction h with
  | nil => exact .nil
  | cons h _ ih => exact .cons (hf _ (by simp) _ h) (ih fun a ha b hb => hf a (by simp [ha]) b hb)

theorem keep_spec {c : Ctx} {n : ℕ} {env : Env} :
    (∀ t : Tr, ∀ r, t.subs c n env = .ok r → KeepT c env t r) ∧
    (∀ e : Ev, ∀ r, e.subs c n env = .ok r → KeepE c env e r) := by
  apply sizeInd
  · intro t ihT ihE r h
    cases t with
    | id s =>
      simp [Tr.subs] at h; subst h
      exact ⟨fun h _ => h s, fun ω h1 h2 _ => h2 s⟩
    | pw ts es ds =>
      by_cases hin : exprInEnv (Tr.symbolsL ts) env
      · simp only [Tr.subs, hin, not_true, if_false, bind, Except.bind] at h
        split at h; · cases h
        rename_i ts' hts
        split at h; · cases h
        rename_i es' hes
        obtain ⟨-, -, -, hsym, ds', -, -, rfl⟩ := mkPiecewise_ok h
        have hT := Tr.subsL_ok hts
        have hE := Ev.subsL_ok hes
        refine ⟨fun hk hm => ?_, fun ω hω hk hr => ?_⟩
        · cases hm with
          | pw h1 h2 h3 =>
            refine .pw (fun t' ht' => ?_) (fun t' ht' => ?_) h
            · obtain ⟨a, ha, hab⟩ := forall₂_mem_right hT ht'
              exact (ihT a (Tr.sizeOf_pw_left ha) t' hab).made hk (h1 a ha)
            · obtain ⟨a, ha, hab⟩ := forall₂_mem_right hE ht'
              exact (ihE a (Tr.sizeOf_pw_right ha) t' hab).made hk (h2 a ha)
        · simp only [Tr.Regular, Ev.regularL_iff, Tr.regularL_eq, Ev.holdsL_eq] at hr ⊢
          refine ⟨fun t' ht' => ?_, ?_⟩
          · obtain ⟨a, ha, hab⟩ := forall₂_mem_right hE ht'
            exact (ihE a (Tr.sizeOf_pw_right ha) t' hab).reg ω hω hk (hr.1 a ha)
          · rw [map_eq_of_forall₂ hE _ fun a ha b hb => (subs_spec.2 a b hb).eval ω hω]
            exact activeRegular_mono (forall₂_map' hT fun a ha b hb => (ihT a (Tr.sizeOf_pw_left ha) b hb).reg ω hω hk) hr.2
      · simp only [Tr.subs, hin, not_false_iff, if_true, Except.ok.injEq] at h
        subst h; exact ⟨fun _ h => h, fun _ _ _ h => h⟩
    | poly t cs =>
      by_cases hin : exprInEnv t.symbols env
      · simp only [Tr.subs, hin, not_true, if_false, bind, Except.bind] at h
        split at h; · cases h
        rename_i t' ht'
        obtain ⟨-, rfl⟩ := mkPoly_ok h
        have := ihT t (by simp; try omega) t' ht'
        exact ⟨fun hk hm => by cases hm with | poly h1 h2 => exact .poly (this.made hk h1) h2, fun ω hω hk hr => this.reg ω hω hk hr⟩
      · simp only [Tr.subs, hin, not_false_iff, if_true, Except.ok.injEq] at h
        subst h; exact ⟨fun _ h => h, fun _ _ _ h => h⟩
    | radical t d =>
      by_cases hin : exprInEnv t.symbols env
      · simp only [Tr.subs, hin, not_true, if_false, bind, Except.bind] at h
        split at h; · cases h
        rename_i t' ht'
        cases h
        have := ihT t (by simp; try omega) t' ht'
        exact ⟨fun hk hm => by cases hm with | radical h1 h2 => exact .radical (this.made hk h1) h2, fun ω hω hk hr => this.reg ω hω hk hr⟩
      · simp only [Tr.subs, hin, not_false_iff, if_true, Except.ok.injEq] at h
        subst h; exact ⟨fun _ h => h, fun _ _ _ h => h⟩
    | exp t d =>
      by_cases hin : exprInEnv t.symbols env
      · simp only [Tr.subs, hin, not_true, if_false, bind, Except.bind] at h
        split at h; · cases h
        rename_i t' ht'
        cases h
        have := ihT t (by simp; try omega) t' ht'
        exact ⟨fun hk hm => by cases hm with | exp h1 h2 => exact .exp (this.made hk h1) h2, fun ω hω hk hr => this.reg ω hω hk hr⟩
      · simp only [Tr.subs, hin, not_false_iff, if_true, Except.ok.injEq] at h
        subst h; exact ⟨fun _ h => h, fun _ _ _ h => h⟩
    | log t d =>
      by_cases hin : exprInEnv t.symbols env
      · simp only [Tr.subs, hin, not_true, if_false, bind, Except.bind] at h
        split at h; · cases h
        rename_i t' ht'
        cases h
        have := ihT t (by simp; try omega) t' ht'
        refine ⟨fun hk hm => by cases hm with | log h1 h2 => exact .log (this.made hk h1) h2, fun ω hω hk hr => ⟨this.reg ω hω hk hr.1, ?_⟩⟩
        rw [(subs_spec.1 t t' ht').eval ω hω]; exact hr.2
      · simp only [Tr.subs, hin, not_false_iff, if_true, Except.ok.injEq] at h
        subst h; exact ⟨fun _ h => h, fun _ _ _ h => h⟩
    | abs t =>
      by_cases hin : exprInEnv t.symbols env
      · simp only [Tr.subs, hin, not_true, if_false, bind, Except.bind] at h
        split at h; · cases h
        rename_i t' ht'
        cases h
        have := ihT t (by simp; try omega) t' ht'
        exact ⟨fun hk hm => by cases hm with | abs h1 => exact .abs (this.made hk h1), fun ω hω hk hr => this.reg ω hω hk hr⟩
      · simp only [Tr.subs, hin, not_false_iff, if_true, Except.ok.injEq] at h
        subst h; exact ⟨fun _ h => h, fun _ _ _ h => h⟩
    | recip t =>
      by_cases hin : exprInEnv t.symbols env
      · simp only [Tr.subs, hin, not_true, if_false, bind, Except.bind] at h
        split at h; · cases h
        rename_i t' ht'
        cases h
        have := ihT t (by simp; try omega) t' ht'
        exact ⟨fun hk hm => by cases hm with | recip h1 => exact .recip (this.made hk h1), fun ω hω hk hr => this.reg ω hω hk hr⟩
      · simp only [Tr.subs, hin, not_false_iff, if_true, Except.ok.injEq] at h
        subst h; exact ⟨fun _ h => h, fun _ _ _ h => h⟩
  · intro e ihT ihE r h
    cases e with
    | ivl t d =>
      by_cases hin : exprInEnv t.symbols env
      · simp only [Ev.subs, hin, not_true, if_false, bind, Except.bind] at h
        split at h; · cases h
        rename_i t' ht'
        cases h
        have := ihT t (by simp; try omega) t' ht'
        exact ⟨fun hk hm => by cases hm with | ivl h1 h2 => exact .ivl (this.made hk h1) h2, fun ω hω hk hr => this.reg ω hω hk hr⟩
      · simp only [Ev.subs, hin, not_false_iff, if_true, Except.ok.injEq] at h
        subst h; exact ⟨fun _ h => h, fun _ _ _ h => h⟩
    | fin t d =>
      by_cases hin : exprInEnv t.symbols env
      · simp only [Ev.subs, hin, not_true, if_false, bind, Except.bind] at h
        split at h; · cases h
        rename_i t' ht'
        cases h
        have := ihT t (by simp; try omega) t' ht'
        exact ⟨fun hk hm => by cases hm with | fin h1 h2 => exact .fin (this.made hk h1) h2, fun ω hω hk hr => this.reg ω hω hk hr⟩
      · simp only [Ev.subs, hin, not_false_iff, if_true, Except.ok.injEq] at h
        subst h; exact ⟨fun _ h => h, fun _ _ _ h => h⟩
    | nom t d =>
      by_cases hin : exprInEnv t.symbols env
      · simp only [Ev.subs, hin, not_true, if_false, bind, Except.bind] at h
        split at h; · cases h
        rename_i t' ht'
        cases h
        have := ihT t (by simp; try omega) t' ht'
        exact ⟨fun hk hm => by
          cases hm with
          | nom h1 h2 h3 => exact .nom (this.made hk h1) (by simp) (fun n hn => ⟨(h3 n hn).1, by simp⟩),
          fun ω hω hk hr => this.reg ω hω hk hr⟩
      · simp only [Ev.subs, hin, not_false_iff, if_true, Except.ok.injEq] at h
        subst h; exact ⟨fun _ h => h, fun _ _ _ h => h⟩
    | or es =>
      by_cases hin : exprInEnv (Ev.symbolsL es) env
      · simp only [Ev.subs, hin, not_true, if_false, bind, Except.bind] at h
        split at h; · cases h
        rename_i es' hes
        cases h
        have hE := Ev.subsL_ok hes
        refine ⟨fun hk hm => ?_, fun ω hω hk hr => ?_⟩
        · cases hm with
          | or h1 h2 =>
            refine .or ?_ fun t' ht' => ?_
            · rintro rfl; exact h1 (List.forall₂_nil_right_iff.1 hE)
            · obtain ⟨a, ha, hab⟩ := forall₂_mem_right hE ht'
              exact (ihE a (Ev.sizeOf_or ha) t' hab).made hk (h2 a ha)
        · simp only [Ev.Regular, Ev.regularL_iff] at hr ⊢
          intro t' ht'
          obtain ⟨a, ha, hab⟩ := forall₂_mem_right hE ht'
          exact (ihE a (Ev.sizeOf_or ha) t' hab).reg ω hω hk (hr a ha)
      · simp only [Ev.subs, hin, not_false_iff, if_true, Except.ok.injEq] at h
        subst h; exact ⟨fun _ h => h, fun _ _ _ h => h⟩
    | and es =>
      by_cases hin : exprInEnv (Ev.symbolsL es) env
      · simp only [Ev.subs, hin, not_true, if_false, bind, Except.bind] at h
        split at h; · cases h
        rename_i es' hes
        cases h
        have hE := Ev.subsL_ok hes
        refine ⟨fun hk hm => ?_, fun ω hω hk hr => ?_⟩
        · cases hm with
          | and h1 h2 =>
            refine .and ?_ fun t' ht' => ?_
            · rintro rfl; exact h1 (List.forall₂_nil_right_iff.1 hE)
            · obtain ⟨a, ha, hab⟩ := forall₂_mem_right hE ht'
              exact (ihE a (Ev.sizeOf_and ha) t' hab).made hk (h2 a ha)
        · simp only [Ev.Regular, Ev.regularL_iff] at hr ⊢
          intro t' ht'
          obtain ⟨a, ha, hab⟩ := forall₂_mem_right hE ht'
          exact (ihE a (Ev.sizeOf_and ha) t' hab).reg ω hω hk (hr a ha)
      · simp only [Ev.subs, hin, not_false_iff, if_true, Except.ok.injEq] at h
        subst h; exact ⟨fun _ h => h, fun _ _ _ h => h⟩

theorem substitute_keep {c : Ctx} {n : ℕ} {env : Env} : ∀ (k : ℕ) (e r : Ev), Ev.substitute c n env k e = .ok r → KeepE c env e r := by
  intro k
  induction k with
  | zero =>
    intro e r hr
    simp only [Ev.substitute] at hr
    split at hr
    · cases hr
    · cases hr; exact ⟨fun _ h => h, fun _ _ _ h => h⟩
  | succ k ih =>
    intro e r hr
    simp only [Ev.substitute] at hr
    split at hr
    · simp only [bind, Except.bind] at hr
      split at hr; · cases hr
      rename_i e' he'
      have h1 := keep_spec.2 e e' he'
      have h2 := ih e' r hr
      exact ⟨fun hk hm => h2.made hk (h1.made hk hm), fun ω hω hk hr => h2.reg ω hω hk (h1.reg ω hω hk hr)⟩
    · cases hr; exact ⟨fun _ h => h, fun _ _ _ h => h⟩

theorem mem_of_lookup {β : Type} {s : String} {t : β} : ∀ {l : List (String × β)}, l.lookup s = some t → (s, t) ∈ l
  | [], h => by simp at h
  | (k, v) :: l, h => by
    rw [List.lookup_cons] at h
    split at h
    · rename_i hk
      have : s = k := by simpa using hk
      cases h; subst this; simp
    · exact List.mem_cons_of_mem _ (mem_of_lookup h)

theorem Env.get_made {c : Ctx} {env : Env} (h : ∀ p ∈ env, p.2.MadeG true c) (s : String) : (env.get s).MadeG true c := by
  unfold Env.get
  cases hl : env.lookup s with
  | none => exact .id s
  | some t => exact h (s, t) (mem_of_lookup hl)

theorem Env.get_regular {ω : Asg} {env : Env} (h : ∀ p ∈ env, p.2.Regular ω) (s : String) : (env.get s).Regular ω := by
  unfold Env.get
  cases hl : env.lookup s with
  | none => trivial
  | some t => exact h (s, t) (mem_of_lookup hl)

mutual
theorem Tr.MadeG.mono {c : Ctx} : ∀ {t : Tr}, t.MadeG false c → t.MadeG true c
  | _, .id s => .id s
  | _, .radical h a => .radical h.mono a
  | _, .exp h a => .exp h.mono a
  | _, .log h a => .log h.mono a
  | _, .abs h => .abs h.mono
  | _, .recip h => .recip h.mono
  | _, .poly h a => .poly h.mono a
  | _, .pw h1 h2 h3 => .pw (fun t ht => (h1 t ht).mono) (fun t ht => (h2 t ht).mono) h3
theorem Ev.MadeG.mono {c : Ctx} : ∀ {e : Ev}, e.MadeG false c → e.MadeG true c
  | _, .ivl h a => .ivl h.mono a
  | _, .fin h a => .fin h.mono a
  | _, .nom h a b => .nom h.mono (by simp) (fun n hn => ⟨(b n hn).1, by simp⟩)
  | _, .or h1 h2 => .or h1 (fun t ht => (h2 t ht).mono)
  | _, .and h1 h2 => .and h1 (fun t ht => (h2 t ht).mono)
end

end Sppl
