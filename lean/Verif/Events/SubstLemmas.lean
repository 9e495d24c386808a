import Verif.Events.SubstSpec
import Verif.Events.OpsLemmas
import Verif.Sets.Props

set_option linter.all false

/-!
# Helper lemmas for substitution and evaluation
-/

namespace Sppl
open Classical
variable {r0 : Bool}

theorem Tr.symOkL_iff {ts : List Tr} : Tr.SymOkL ts ↔ ∀ t ∈ ts, t.SymOk := by
  induction ts with
  | nil => simp [Tr.SymOkL]
  | cons e es ih => simp [Tr.SymOkL, ih]

theorem Ev.symOkL_iff {ts : List Ev} : Ev.SymOkL ts ↔ ∀ t ∈ ts, t.SymOk := by
  induction ts with
  | nil => simp [Ev.SymOkL]
  | cons e es ih => simp [Ev.SymOkL, ih]

/-- Values only depend on the variables mentioned. -/
theorem eval_congr {ω ω' : Asg} :
    (∀ t : Tr, t.SymOk → (∀ s ∈ t.symbols, ω s = ω' s) → t.eval ω = t.eval ω') ∧
    (∀ e : Ev, e.SymOk → (∀ s ∈ e.symbols, ω s = ω' s) → e.holdsB ω = e.holdsB ω') := by
  apply sizeInd
  · intro t ihT ihE hok hs
    cases t with
    | id s => simpa [Tr.eval] using hs s (by simp [Tr.symbols])
    | pw ts es ds =>
      simp only [Tr.SymOk, Tr.symOkL_iff, Ev.symOkL_iff] at hok
      simp only [Tr.symbols] at hs
      rw [Tr.eval, Tr.eval, Tr.evalL_eq, Tr.evalL_eq, Ev.holdsL_eq, Ev.holdsL_eq]
      congr 1
      · apply List.map_congr_left
        intro t ht
        exact ihT t (Tr.sizeOf_pw_left ht) (hok.1 t ht) fun s hs' => hs s (Tr.mem_symbolsL.2 ⟨t, ht, hs'⟩)
      · apply List.map_congr_left
        intro t ht
        exact ihE t (Tr.sizeOf_pw_right ht) (hok.2.1 t ht) fun s hs' =>
          hs s (hok.2.2 (Ev.mem_symbolsL.2 ⟨t, ht, hs'⟩))
    | _ =>
      simp only [Tr.SymOk] at hok
      simp only [Tr.symbols] at hs
      simp only [Tr.eval]
      congr 1
      exact ihT _ (by simp; try omega) hok hs
  · intro e ihT ihE hok hs
    cases e with
    | or es =>
      simp only [Ev.SymOk, Ev.symOkL_iff] at hok
      simp only [Ev.symbols] at hs
      rw [Ev.holdsB, Ev.holdsB, Ev.holdsL_eq, Ev.holdsL_eq]
      congr 1
      apply List.map_congr_left
      intro t ht
      exact ihE t (Ev.sizeOf_or ht) (hok t ht) fun s hs' => hs s (Ev.mem_symbolsL.2 ⟨t, ht, hs'⟩)
    | and es =>
      simp only [Ev.SymOk, Ev.symOkL_iff] at hok
      simp only [Ev.symbols] at hs
      rw [Ev.holdsB, Ev.holdsB, Ev.holdsL_eq, Ev.holdsL_eq]
      congr 1
      apply List.map_congr_left
      intro t ht
      exact ihE t (Ev.sizeOf_and ht) (hok t ht) fun s hs' => hs s (Ev.mem_symbolsL.2 ⟨t, ht, hs'⟩)
    | _ =>
      simp only [Ev.SymOk] at hok
      simp only [Ev.symbols] at hs
      simp only [Ev.holdsB]
      rw [ihT _ (by simp; try omega) hok hs]

theorem Made.symOk (c : Ctx) : (∀ t : Tr, t.MadeG r0 c → t.SymOk) ∧ ∀ e : Ev, e.MadeG r0 c → e.SymOk := by
  apply sizeInd
  · intro t ihT ihE hm
    cases hm with
    | id => trivial
    | pw h1 h2 h3 =>
      obtain ⟨-, -, -, h, -⟩ := mkPiecewise_ok h3
      exact ⟨Tr.symOkL_iff.2 fun t ht => ihT t (Tr.sizeOf_pw_left ht) (h1 t ht),
        Ev.symOkL_iff.2 fun t ht => ihE t (Tr.sizeOf_pw_right ht) (h2 t ht), h ▸ Finset.Subset.refl _⟩
    | radical h _ => (simp only [Tr.SymOk, Ev.SymOk]; exact ihT _ (by simp; try omega) h)
    | exp h _ => (simp only [Tr.SymOk, Ev.SymOk]; exact ihT _ (by simp; try omega) h)
    | log h _ => (simp only [Tr.SymOk, Ev.SymOk]; exact ihT _ (by simp; try omega) h)
    | abs h => (simp only [Tr.SymOk, Ev.SymOk]; exact ihT _ (by simp; try omega) h)
    | recip h => (simp only [Tr.SymOk, Ev.SymOk]; exact ihT _ (by simp; try omega) h)
    | poly h _ => (simp only [Tr.SymOk, Ev.SymOk]; exact ihT _ (by simp; try omega) h)
  · intro e ihT ihE hm
    cases hm with
    | ivl h _ => (simp only [Tr.SymOk, Ev.SymOk]; exact ihT _ (by simp; try omega) h)
    | fin h _ => (simp only [Tr.SymOk, Ev.SymOk]; exact ihT _ (by simp; try omega) h)
    | nom h _ _ => (simp only [Tr.SymOk, Ev.SymOk]; exact ihT _ (by simp; try omega) h)
    | or _ h => exact Ev.symOkL_iff.2 fun t ht => ihE t (Ev.sizeOf_or ht) (h t ht)
    | and _ h => exact Ev.symOkL_iff.2 fun t ht => ihE t (Ev.sizeOf_and ht) (h t ht)

theorem Tr.subsL_ok {c : Ctx} {n : ℕ} {env : Env} {ts rs : List Tr} (h : Tr.subsL c n env ts = .ok rs) :
    List.Forall₂ (fun t r => t.subs c n env = .ok r) ts rs := by
  induction ts generalizing rs with
  | nil => simp [Tr.subsL] at h; subst h; exact .nil
  | cons t ts ih =>
    simp only [Tr.subsL, bind, Except.bind] at h
    split at h; · cases h
    split at h; · cases h
    cases h
    exact .cons (by assumption) (ih (by assumption))

theorem Ev.subsL_ok {c : Ctx} {n : ℕ} {env : Env} {ts rs : List Ev} (h : Ev.subsL c n env ts = .ok rs) :
    List.Forall₂ (fun t r => t.subs c n env = .ok r) ts rs := by
  induction ts generalizing rs with
  | nil => simp [Ev.subsL] at h; subst h; exact .nil
  | cons t ts ih =>
    simp only [Ev.subsL, bind, Except.bind] at h
    split at h; · cases h
    split at h; · cases h
    cases h
    exact .cons (by assumption) (ih (by assumption))

theorem map_eq_of_forall₂ {α β : Type} {R : α → α → Prop} {l r : List α} (h : List.Forall₂ R l r) (f : α → β)
    (hf : ∀ a ∈ l, ∀ b, R a b → f b = f a) : r.map f = l.map f := by
  induction h with
  | nil => rfl
  | cons h _ ih =>
    simp only [List.map_cons]
    rw [hf _ (by simp) _ h, ih fun a ha => hf a (by simp [ha])]

/-- Everything about one substitution step, at assignments that satisfy the equations of the environment. -/
structure SubsT (env : Env) (t r : Tr) : Prop where
  eval : ∀ ω : Asg, (∀ s, (env.get s).eval ω = ω s) → r.eval ω = t.eval ω
  sym : ∀ s ∈ r.symbols, ∃ s' ∈ t.symbols, s ∈ (env.get s').symbols
  ok : (∀ s, (env.get s).SymOk) → t.SymOk → r.SymOk

/-- See `SubsT`. -/
structure SubsE (env : Env) (t r : Ev) : Prop where
  eval : ∀ ω : Asg, (∀ s, (env.get s).eval ω = ω s) → r.holdsB ω = t.holdsB ω
  sym : ∀ s ∈ r.symbols, ∃ s' ∈ t.symbols, s ∈ (env.get s').symbols
  ok : (∀ s, (env.get s).SymOk) → t.SymOk → r.SymOk

theorem SubsT.same {env : Env} {t : Tr} (h : ¬ exprInEnv t.symbols env) : SubsT env t t := by
  refine ⟨fun ω _ => rfl, fun s hs => ⟨s, hs, ?_⟩, fun _ h => h⟩
  unfold exprInEnv at h; push Not at h
  rw [h s hs]; simp [Tr.symbols]

theorem SubsE.same {env : Env} {t : Ev} (h : ¬ exprInEnv t.symbols env) : SubsE env t t := by
  refine ⟨fun ω _ => rfl, fun s hs => ⟨s, hs, ?_⟩, fun _ h => h⟩
  unfold exprInEnv at h; push Not at h
  rw [h s hs]; simp [Tr.symbols]

theorem subs_spec {c : Ctx} {n : ℕ} {env : Env} :
    (∀ t : Tr, ∀ r, t.subs c n env = .ok r → SubsT env t r) ∧
    (∀ e : Ev, ∀ r, e.subs c n env = .ok r → SubsE env e r) := by
  apply sizeInd
  · intro t ihT ihE r h
    cases t with
    | id s =>
      simp [Tr.subs] at h; subst h
      exact ⟨fun ω hω => by rw [hω, Tr.eval], fun s' hs' => ⟨s, by simp [Tr.symbols], hs'⟩, fun h _ => h s⟩
    | pw ts es ds =>
      by_cases hin : exprInEnv (Tr.symbolsL ts) env
      · simp only [Tr.subs, hin, not_true, if_false, bind, Except.bind] at h
        split at h; · cases h
        rename_i ts' hts
        split at h; · cases h
        rename_i es' hes
        obtain ⟨-, -, -, hsym, ds', -, -, rfl⟩ := mkPiecewise_ok h
        have hT := Tr.subsL_ok hts
        have hE := Ev.subsL_ok hes
        refine ⟨fun ω hω => ?_, fun s hs => ?_, fun hk hok => ?_⟩
        · rw [Tr.eval, Tr.eval, Tr.evalL_eq, Tr.evalL_eq, Ev.holdsL_eq, Ev.holdsL_eq]
          rw [map_eq_of_forall₂ hT _ fun a ha b hb => (ihT a (Tr.sizeOf_pw_left ha) b hb).eval ω hω]
          rw [map_eq_of_forall₂ hE _ fun a ha b hb => (ihE a (Tr.sizeOf_pw_right ha) b hb).eval ω hω]
        · simp only [Tr.symbols] at hs ⊢
          obtain ⟨t', ht', hs'⟩ := Tr.mem_symbolsL.1 hs
          obtain ⟨a, ha, hab⟩ := forall₂_mem_right hT ht'
          obtain ⟨s'', h1, h2⟩ := (ihT a (Tr.sizeOf_pw_left ha) t' hab).sym s hs'
          exact ⟨s'', Tr.mem_symbolsL.2 ⟨a, ha, h1⟩, h2⟩
        · simp only [Tr.SymOk, Tr.symOkL_iff, Ev.symOkL_iff] at hok ⊢
          refine ⟨fun t' ht' => ?_, fun t' ht' => ?_, hsym ▸ Finset.Subset.refl _⟩
          · obtain ⟨a, ha, hab⟩ := forall₂_mem_right hT ht'
            exact (ihT a (Tr.sizeOf_pw_left ha) t' hab).ok hk (hok.1 a ha)
          · obtain ⟨a, ha, hab⟩ := forall₂_mem_right hE ht'
            exact (ihE a (Tr.sizeOf_pw_right ha) t' hab).ok hk (hok.2.1 a ha)
      · simp only [Tr.subs, hin, not_false_iff, if_true, Except.ok.injEq] at h
        subst h; exact SubsT.same hin
    | poly t cs =>
      by_cases hin : exprInEnv t.symbols env
      · simp only [Tr.subs, hin, not_true, if_false, bind, Except.bind] at h
        split at h; · cases h
        rename_i t' ht'
        obtain ⟨-, rfl⟩ := mkPoly_ok h
        have := ihT t (by simp; try omega) t' ht'
        exact ⟨fun ω hω => by simp only [Tr.eval, this.eval ω hω], this.sym, this.ok⟩
      · simp only [Tr.subs, hin, not_false_iff, if_true, Except.ok.injEq] at h
        subst h; exact SubsT.same hin
    | radical t d =>
      by_cases hin : exprInEnv t.symbols env
      · simp only [Tr.subs, hin, not_true, if_false, bind, Except.bind] at h
        split at h; · cases h
        rename_i t' ht'
        cases h
        have := ihT t (by simp; try omega) t' ht'
        exact ⟨fun ω hω => by simp only [Tr.eval, this.eval ω hω], this.sym, this.ok⟩
      · simp only [Tr.subs, hin, not_false_iff, if_true, Except.ok.injEq] at h
        subst h; exact SubsT.same hin
    | exp t d =>
      by_cases hin : exprInEnv t.symbols env
      · simp only [Tr.subs, hin, not_true, if_false, bind, Except.bind] at h
        split at h; · cases h
        rename_i t' ht'
        cases h
        have := ihT t (by simp; try omega) t' ht'
        exact ⟨fun ω hω => by simp only [Tr.eval, this.eval ω hω], this.sym, this.ok⟩
      · simp only [Tr.subs, hin, not_false_iff, if_true, Except.ok.injEq] at h
        subst h; exact SubsT.same hin
    | log t d =>
      by_cases hin : exprInEnv t.symbols env
      · simp only [Tr.subs, hin, not_true, if_false, bind, Except.bind] at h
        split at h; · cases h
        rename_i t' ht'
        cases h
        have := ihT t (by simp; try omega) t' ht'
        exact ⟨fun ω hω => by simp only [Tr.eval, this.eval ω hω], this.sym, this.ok⟩
      · simp only [Tr.subs, hin, not_false_iff, if_true, Except.ok.injEq] at h
        subst h; exact SubsT.same hin
    | abs t =>
      by_cases hin : exprInEnv t.symbols env
      · simp only [Tr.subs, hin, not_true, if_false, bind, Except.bind] at h
        split at h; · cases h
        rename_i t' ht'
        cases h
        have := ihT t (by simp; try omega) t' ht'
        exact ⟨fun ω hω => by simp only [Tr.eval, this.eval ω hω], this.sym, this.ok⟩
      · simp only [Tr.subs, hin, not_false_iff, if_true, Except.ok.injEq] at h
        subst h; exact SubsT.same hin
    | recip t =>
      by_cases hin : exprInEnv t.symbols env
      · simp only [Tr.subs, hin, not_true, if_false, bind, Except.bind] at h
        split at h; · cases h
        rename_i t' ht'
        cases h
        have := ihT t (by simp; try omega) t' ht'
        exact ⟨fun ω hω => by simp only [Tr.eval, this.eval ω hω], this.sym, this.ok⟩
      · simp only [Tr.subs, hin, not_false_iff, if_true, Except.ok.injEq] at h
        subst h; exact SubsT.same hin
  · intro e ihT ihE r h
    cases e with
    | ivl t d =>
      by_cases hin : exprInEnv t.symbols env
      · simp only [Ev.subs, hin, not_true, if_false, bind, Except.bind] at h
        split at h; · cases h
        rename_i t' ht'
        cases h
        have := ihT t (by simp; try omega) t' ht'
        exact ⟨fun ω hω => by simp only [Ev.holdsB, this.eval ω hω], this.sym, this.ok⟩
      · simp only [Ev.subs, hin, not_false_iff, if_true, Except.ok.injEq] at h
        subst h; exact SubsE.same hin
    | fin t d =>
      by_cases hin : exprInEnv t.symbols env
      · simp only [Ev.subs, hin, not_true, if_false, bind, Except.bind] at h
        split at h; · cases h
        rename_i t' ht'
        cases h
        have := ihT t (by simp; try omega) t' ht'
        exact ⟨fun ω hω => by simp only [Ev.holdsB, this.eval ω hω], this.sym, this.ok⟩
      · simp only [Ev.subs, hin, not_false_iff, if_true, Except.ok.injEq] at h
        subst h; exact SubsE.same hin
    | nom t d =>
      by_cases hin : exprInEnv t.symbols env
      · simp only [Ev.subs, hin, not_true, if_false, bind, Except.bind] at h
        split at h; · cases h
        rename_i t' ht'
        cases h
        have := ihT t (by simp; try omega) t' ht'
        exact ⟨fun ω hω => by simp only [Ev.holdsB, this.eval ω hω], this.sym, this.ok⟩
      · simp only [Ev.subs, hin, not_false_iff, if_true, Except.ok.injEq] at h
        subst h; exact SubsE.same hin
    | or es =>
      by_cases hin : exprInEnv (Ev.symbolsL es) env
      · simp only [Ev.subs, hin, not_true, if_false, bind, Except.bind] at h
        split at h; · cases h
        rename_i es' hes
        cases h
        have hE := Ev.subsL_ok hes
        refine ⟨fun ω hω => ?_, fun s hs => ?_, fun hk hok => ?_⟩
        · rw [Ev.holdsB, Ev.holdsB, Ev.holdsL_eq, Ev.holdsL_eq]
          rw [map_eq_of_forall₂ hE _ fun a ha b hb => (ihE a (Ev.sizeOf_or ha) b hb).eval ω hω]
        · simp only [Ev.symbols] at hs ⊢
          obtain ⟨t', ht', hs'⟩ := Ev.mem_symbolsL.1 hs
          obtain ⟨a, ha, hab⟩ := forall₂_mem_right hE ht'
          obtain ⟨s'', h1, h2⟩ := (ihE a (Ev.sizeOf_or ha) t' hab).sym s hs'
          exact ⟨s'', Ev.mem_symbolsL.2 ⟨a, ha, h1⟩, h2⟩
        · simp only [Ev.SymOk, Ev.symOkL_iff] at hok ⊢
          intro t' ht'
          obtain ⟨a, ha, hab⟩ := forall₂_mem_right hE ht'
          exact (ihE a (Ev.sizeOf_or ha) t' hab).ok hk (hok a ha)
      · simp only [Ev.subs, hin, not_false_iff, if_true, Except.ok.injEq] at h
        subst h; exact SubsE.same hin
    | and es =>
      by_cases hin : exprInEnv (Ev.symbolsL es) env
      · simp only [Ev.subs, hin, not_true, if_false, bind, Except.bind] at h
        split at h; · cases h
        rename_i es' hes
        cases h
        have hE := Ev.subsL_ok hes
        refine ⟨fun ω hω => ?_, fun s hs => ?_, fun hk hok => ?_⟩
        · rw [Ev.holdsB, Ev.holdsB, Ev.holdsL_eq, Ev.holdsL_eq]
          rw [map_eq_of_forall₂ hE _ fun a ha b hb => (ihE a (Ev.sizeOf_and ha) b hb).eval ω hω]
        · simp only [Ev.symbols] at hs ⊢
          obtain ⟨t', ht', hs'⟩ := Ev.mem_symbolsL.1 hs
          obtain ⟨a, ha, hab⟩ := forall₂_mem_right hE ht'
          obtain ⟨s'', h1, h2⟩ := (ihE a (Ev.sizeOf_and ha) t' hab).sym s hs'
          exact ⟨s'', Ev.mem_symbolsL.2 ⟨a, ha, h1⟩, h2⟩
        · simp only [Ev.SymOk, Ev.symOkL_iff] at hok ⊢
          intro t' ht'
          obtain ⟨a, ha, hab⟩ := forall₂_mem_right hE ht'
          exact (ihE a (Ev.sizeOf_and ha) t' hab).ok hk (hok a ha)
      · simp only [Ev.subs, hin, not_false_iff, if_true, Except.ok.injEq] at h
        subst h; exact SubsE.same hin

/-! ## Environments -/

theorem Env.get_append_old {env : Env} {Y : String} {f : Tr} {s : String} (h : s ∈ env.keys) :
    Env.get (env ++ [(Y, f)]) s = Env.get env s := by
  unfold Env.get
  rw [List.lookup_append]
  have : (env.lookup s).isSome := by
    unfold Env.keys at h
    induction env with
    | nil => simp at h
    | cons p env ih =>
      by_cases hp : s = p.1
      · simp [List.lookup, hp]
      · have hp' : (s == p.1) = false := by simpa using hp
        simp only [List.lookup, hp']
        exact ih (by simpa [hp] using h)
  obtain ⟨a, ha⟩ := Option.isSome_iff_exists.1 this
  simp [ha]

theorem Env.lookup_none {env : Env} {s : String} (h : s ∉ env.keys) : env.lookup s = none := by
  unfold Env.keys at h
  induction env with
  | nil => rfl
  | cons p env ih =>
    have hp : s ≠ p.1 := fun e => h (by simp [e])
    have hp' : (s == p.1) = false := by simpa using hp
    simp only [List.lookup, hp']
    exact ih fun h' => h (by simp only [List.map_cons, List.mem_cons]; exact Or.inr h')

theorem Env.get_not_mem {env : Env} {s : String} (h : s ∉ env.keys) : env.get s = .id s := by
  simp [Env.get, Env.lookup_none h]

theorem Env.get_append_new {env : Env} {Y : String} {f : Tr} (h : Y ∉ env.keys) :
    Env.get (env ++ [(Y, f)]) Y = f := by
  unfold Env.get
  rw [List.lookup_append, Env.lookup_none h]; simp

theorem Env.keys_append {env : Env} {Y : String} {f : Tr} : Env.keys (env ++ [(Y, f)]) = env.keys ++ [Y] := by
  simp [Env.keys]

theorem Env.extend_append (env : Env) (Y : String) (f : Tr) (ω : Asg) :
    Env.extend (env ++ [(Y, f)]) ω = fun s => if s = Y then f.eval (env.extend ω) else env.extend ω s := by
  simp [Env.extend]

theorem EnvBuilt.base_mem {X : String} {env : Env} (h : EnvBuilt X env) : X ∈ env.keys := by
  induction h with
  | base => simp [Env.keys]
  | step _ _ _ _ ih => rw [Env.keys_append]; simp [ih]

theorem EnvBuilt.get_base {X : String} {env : Env} (h : EnvBuilt X env) : env.get X = .id X := by
  induction h with
  | base => simp [Env.get]
  | step h _ _ _ ih => rw [Env.get_append_old h.base_mem, ih]

/-- The rank of a variable: its position in the environment. -/
theorem EnvBuilt.rank {X : String} {env : Env} (h : EnvBuilt X env) :
    ∃ ρ : String → ℕ, (∀ s ∈ env.keys, ρ s < env.length) ∧ (∀ s ∈ env.keys, ρ s = 0 → s = X) ∧
      (∀ s ∈ env.keys, ∀ s' ∈ (env.get s).symbols, s' ∈ env.keys ∧ ρ s' ≤ ρ s - 1) ∧
      (∀ s, (env.get s).SymOk) := by
  induction h with
  | base =>
    refine ⟨fun _ => 0, ?_, ?_, ?_, ?_⟩
    · simp
    · simp [Env.keys]
    · simp [Env.keys, Env.get, Tr.symbols]
    · intro s
      by_cases hs : s = X
      · subst hs; simp [Env.get, Tr.SymOk]
      · rw [Env.get_not_mem (by simpa [Env.keys] using hs)]; trivial
  | step h hY hf hok ih =>
    rename_i env Y f
    obtain ⟨ρ, h1, h2, h3, h4⟩ := ih
    have hpos : 0 < env.length := by
      have := h.base_mem; cases env with
      | nil => simp [Env.keys] at this
      | cons => simp
    refine ⟨fun s => if s = Y then env.length else ρ s, ?_, ?_, ?_, ?_⟩
    · intro s hs
      rw [Env.keys_append] at hs
      simp only [List.mem_append, List.mem_singleton] at hs
      simp only [List.length_append, List.length_singleton]
      split
      · omega
      · have := h1 s (by tauto); omega
    · intro s hs h0
      rw [Env.keys_append] at hs
      simp only [List.mem_append, List.mem_singleton] at hs
      beta_reduce at h0
      split at h0
      · omega
      · exact h2 s (by tauto) h0
    · intro s hs s' hs'
      rw [Env.keys_append] at hs ⊢
      simp only [List.mem_append, List.mem_singleton] at hs ⊢
      by_cases hsY : s = Y
      · subst hsY
        rw [Env.get_append_new hY] at hs'
        have hk := hf s' hs'
        have hne : s' ≠ s := by rintro rfl; exact hY hk
        refine ⟨Or.inl hk, ?_⟩
        simp only [hne, if_false, if_true]
        have := h1 s' hk; omega
      · have hsk : s ∈ env.keys := by tauto
        rw [Env.get_append_old hsk] at hs'
        obtain ⟨hk, hr⟩ := h3 s hsk s' hs'
        have hne : s' ≠ Y := by rintro rfl; exact hY hk
        refine ⟨Or.inl hk, ?_⟩
        simp only [hne, hsY, if_false]; exact hr
    · intro s
      by_cases hsY : s = Y
      · subst hsY; rw [Env.get_append_new hY]; exact hok
      · by_cases hsk : s ∈ env.keys
        · rw [Env.get_append_old hsk]; exact h4 s
        · rw [Env.get_not_mem (by rw [Env.keys_append]; simp [hsk, hsY])]; trivial

theorem EnvBuilt.extend_base {X : String} {env : Env} (h : EnvBuilt X env) (ω : Asg) {s : String}
    (hs : s ∉ env.keys ∨ s = X) : env.extend ω s = ω s := by
  induction h with
  | base =>
    simp only [Env.extend, List.foldl_cons, List.foldl_nil, Tr.eval]
    split <;> simp [*]
  | step h hY hf0 hok0 ih =>
    rename_i env Y f
    rw [Env.extend_append]
    have hne : s ≠ Y := by
      rintro rfl
      rcases hs with hs | rfl
      · exact hs (by rw [Env.keys_append]; simp)
      · exact hY h.base_mem
    simp only [hne, if_false]
    refine ih (hs.imp_left fun hs h' => hs ?_)
    rw [Env.keys_append]; simp [h']

/-- The extended assignment satisfies the equations of the environment. -/
theorem EnvBuilt.extend_get {X : String} {env : Env} (h : EnvBuilt X env) (ω : Asg) (s : String) :
    (env.get s).eval (env.extend ω) = env.extend ω s := by
  induction h generalizing s with
  | base =>
    by_cases hs : s = X
    · subst hs; simp [Env.get, Tr.eval]
    · rw [Env.get_not_mem (by simpa [Env.keys] using hs)]; rfl
  | step h hY hf hok ih =>
    rename_i env Y f
    have agree : ∀ s ∈ env.keys, Env.extend (env ++ [(Y, f)]) ω s = env.extend ω s := by
      intro s hs
      have hne : s ≠ Y := by rintro rfl; exact hY hs
      rw [Env.extend_append]; simp [hne]
    by_cases hsY : s = Y
    · subst hsY
      rw [Env.get_append_new hY, (eval_congr (ω := Env.extend (env ++ [(s, f)]) ω) (ω' := env.extend ω)).1 f hok
        (fun s' hs' => agree s' (hf s' hs')), Env.extend_append]
      simp
    · by_cases hsk : s ∈ env.keys
      · obtain ⟨ρ, -, -, h3, h4⟩ := h.rank
        rw [Env.get_append_old hsk, agree s hsk, ← ih s]
        exact (eval_congr).1 _ (h4 s) fun s' hs' => agree s' (h3 s hsk s' hs').1
      · rw [Env.get_not_mem (by rw [Env.keys_append]; simp [hsk, hsY])]; rfl

theorem EnvBuilt.substitute {c : Ctx} {n : ℕ} {X : String} {env : Env} (h : EnvBuilt X env) :
    ∀ (k : ℕ) (e : Ev), (∀ s ∈ e.symbols, s ∈ env.keys) → ∀ r, Ev.substitute c n env k e = .ok r →
      r.symbols ⊆ {X} ∧ (∀ ω, r.holdsB (env.extend ω) = e.holdsB (env.extend ω)) ∧ (e.SymOk → r.SymOk) := by
  obtain ⟨ρ, h1, h2, h3, h4⟩ := h.rank
  have stop : ∀ e : Ev, (∀ s ∈ e.symbols, s ∈ env.keys) → ¬ exprInEnv e.symbols env → e.symbols ⊆ {X} := by
    intro e he hn s hs
    unfold exprInEnv at hn; push Not at hn
    simp only [Finset.mem_singleton]
    apply h2 s (he s hs)
    have := h3 s (he s hs) s (by rw [hn s hs]; simp [Tr.symbols])
    omega
  intro k
  induction k with
  | zero =>
    intro e he r hr
    simp only [Ev.substitute] at hr
    split at hr
    · cases hr
    · cases hr; exact ⟨stop e he (by assumption), fun _ => rfl, id⟩
  | succ k ih =>
    intro e he r hr
    simp only [Ev.substitute] at hr
    split at hr
    · simp only [bind, Except.bind] at hr
      split at hr; · cases hr
      rename_i e' he'
      have hs := subs_spec.2 e e' he'
      obtain ⟨a, b, d⟩ := ih e' (fun s hs' => by
        obtain ⟨s', hs1, hs2⟩ := hs.sym s hs'
        exact (h3 s' (he s' hs1) s hs2).1) r hr
      exact ⟨a, fun ω => by rw [b, hs.eval _ (h.extend_get ω)], fun ok => d (hs.ok h4 ok)⟩
    · cases hr; exact ⟨stop e he (by assumption), fun _ => rfl, id⟩

theorem EnvBuilt.substitute_stable {c : Ctx} {n : ℕ} {X : String} {env : Env} (h : EnvBuilt X env) (e : Ev)
    (he : ∀ s ∈ e.symbols, s ∈ env.keys) (j : ℕ) :
    Ev.substitute c n env (env.length - 1 + j) e = Ev.substitute c n env (env.length - 1) e := by
  obtain ⟨ρ, h1, h2, h3, h4⟩ := h.rank
  have key : ∀ (k : ℕ) (e : Ev), (∀ s ∈ e.symbols, s ∈ env.keys) → (∀ s ∈ e.symbols, ρ s ≤ k) →
      Ev.substitute c n env (k + j) e = Ev.substitute c n env k e := by
    intro k
    induction k with
    | zero =>
      intro e he hρ
      have : ¬ exprInEnv e.symbols env := by
        unfold exprInEnv; push Not
        intro s hs
        rw [h2 s (he s hs) (by have := hρ s hs; omega)]; exact h.get_base
      cases j <;> simp [Ev.substitute, this]
    | succ k ih =>
      intro e he hρ
      rw [show k + 1 + j = (k + j) + 1 by omega]
      simp only [Ev.substitute]
      split
      · simp only [bind, Except.bind]
        cases hsub : e.subs c n env with
        | error => rfl
        | ok e' =>
          have hs := subs_spec.2 e e' hsub
          apply ih e'
          · intro s hs'
            obtain ⟨s', hs1, hs2⟩ := hs.sym s hs'
            exact (h3 s' (he s' hs1) s hs2).1
          · intro s hs'
            obtain ⟨s', hs1, hs2⟩ := hs.sym s hs'
            have := (h3 s' (he s' hs1) s hs2).2
            have := hρ s' hs1
            omega
      · rfl
  exact key _ e he fun s hs => by have := h1 s (he s hs); omega

/-! ## Evaluation -/

theorem PyV.num_ok {v : PyV} {x : ℝ} (h : v.num = .ok x) : v = .val (.num x) := by
  cases v with
  | set => simp [PyV.num] at h
  | val v => cases v <;> simp [PyV.num] at h; subst h; rfl

/-- A value returned by `evaluate` (other than the set returned for logarithms) is the right one. -/
theorem Tr.evaluate_sound {ω : Asg} (t : Tr) : ∀ {v : Val ℝ}, t.evaluate ω = .ok (.val v) → t.eval ω = some v := by
  refine (sizeInd (P := fun t => ∀ {v : Val ℝ}, t.evaluate ω = .ok (.val v) → t.eval ω = some v)
    (Q := fun _ => True) ?_ (fun _ _ _ => trivial)).1 t
  clear t
  intro t ih hE0 v h
  clear hE0
  cases t with
  | id s =>
    simp only [Tr.evaluate] at h
    split at h
    · cases h; simpa [Tr.eval]
    · cases h
  | pw => simp [Tr.evaluate] at h
  | radical t n =>
    simp only [Tr.evaluate, bind, Except.bind] at h
    split at h; · cases h
    rename_i w hw
    split at h; · cases h
    rename_i x hx
    rw [PyV.num_ok hx] at hw
    rw [Tr.eval, ih t (by simp; try omega) hw]
    split at h
    · cases h
    · cases h
      rename_i h0
      simp [onNum, radicalVal, not_lt.1 h0]
  | exp t n =>
    simp only [Tr.evaluate, bind, Except.bind] at h
    split at h; · cases h
    rename_i w hw
    split at h; · cases h
    rename_i x hx
    rw [PyV.num_ok hx] at hw
    rw [Tr.eval, ih t (by simp; try omega) hw]
    cases h
    simp [onNum, expVal]
  | log t n =>
    simp only [Tr.evaluate, bind, Except.bind] at h
    split at h; · cases h
    split at h; · cases h
    split at h <;> cases h
  | abs t =>
    simp only [Tr.evaluate, bind, Except.bind] at h
    split at h; · cases h
    rename_i w hw
    split at h; · cases h
    rename_i x hx
    rw [PyV.num_ok hx] at hw
    rw [Tr.eval, ih t (by simp; try omega) hw]
    cases h
    simp only [onNum, Option.map_some, Option.some.injEq, Val.num.injEq]
    split
    · rename_i h0; exact abs_of_pos h0
    · rename_i h0; exact abs_of_nonpos (not_lt.1 h0)
  | recip t =>
    simp only [Tr.evaluate, bind, Except.bind] at h
    split at h; · cases h
    rename_i w hw
    split at h; · cases h
    rename_i x hx
    rw [PyV.num_ok hx] at hw
    rw [Tr.eval, ih t (by simp; try omega) hw]
    split at h
    · cases h
    · rename_i h0; cases h; simp [onNum, recipVal, h0]
  | poly t cs =>
    simp only [Tr.evaluate, bind, Except.bind] at h
    split at h; · cases h
    rename_i w hw
    split at h; · cases h
    rename_i x hx
    rw [PyV.num_ok hx] at hw
    rw [Tr.eval, ih t (by simp; try omega) hw]
    cases h
    rfl

/-- `evaluate` returns on expressions without logarithm or piecewise parts. -/
theorem Tr.evaluate_total {ω : Asg} (t : Tr) : t.Plain → ∀ {v : Val ℝ}, t.eval ω = some v → t.evaluate ω = .ok (.val v) := by
  refine (sizeInd (P := fun t => t.Plain → ∀ {v : Val ℝ}, t.eval ω = some v → t.evaluate ω = .ok (.val v))
    (Q := fun _ => True) ?_ (fun _ _ _ => trivial)).1 t
  clear t
  intro t ih hE0 hp v h
  clear hE0
  have onN : ∀ {f : ℝ → Option ℝ} {o : Option (Val ℝ)} {v : Val ℝ}, onNum f o = some v →
      ∃ x y, o = some (.num x) ∧ f x = some y ∧ v = .num y := by
    intro f o v h
    match o, h with
    | some (.num x), h =>
      simp only [onNum, Option.map_eq_some_iff] at h
      obtain ⟨y, h1, h2⟩ := h
      exact ⟨x, y, rfl, h1, h2.symm⟩
  cases t with
  | id s => simp only [Tr.eval] at h; simp [Tr.evaluate, h]
  | pw => simp [Tr.Plain] at hp
  | log => simp [Tr.Plain] at hp
  | radical t n =>
    obtain ⟨x, y, h1, h2, rfl⟩ := onN (by simpa only [Tr.eval] using h)
    simp only [Tr.Plain] at hp
    simp only [Tr.evaluate, ih t (by simp; try omega) hp h1, bind, Except.bind, PyV.num]
    simp only [radicalVal] at h2
    split at h2
    · rename_i h0; cases h2; simp [not_lt.2 h0]
    · cases h2
  | exp t n =>
    obtain ⟨x, y, h1, h2, rfl⟩ := onN (by simpa only [Tr.eval] using h)
    simp only [Tr.Plain] at hp
    simp only [Tr.evaluate, ih t (by simp; try omega) hp h1, bind, Except.bind, PyV.num]
    cases h2; rfl
  | abs t =>
    obtain ⟨x, y, h1, h2, rfl⟩ := onN (by simpa only [Tr.eval] using h)
    simp only [Tr.Plain] at hp
    simp only [Tr.evaluate, ih t (by simp; try omega) hp h1, bind, Except.bind, PyV.num]
    cases h2
    split
    · rename_i h0; rw [abs_of_pos h0]
    · rename_i h0; rw [abs_of_nonpos (not_lt.1 h0)]
  | recip t =>
    obtain ⟨x, y, h1, h2, rfl⟩ := onN (by simpa only [Tr.eval] using h)
    simp only [Tr.Plain] at hp
    simp only [Tr.evaluate, ih t (by simp; try omega) hp h1, bind, Except.bind, PyV.num]
    simp only [recipVal] at h2
    split at h2
    · cases h2
    · rename_i h0; cases h2; simp [h0]
  | poly t cs =>
    obtain ⟨x, y, h1, h2, rfl⟩ := onN (by simpa only [Tr.eval] using h)
    simp only [Tr.Plain] at hp
    simp only [Tr.evaluate, ih t (by simp; try omega) hp h1, bind, Except.bind, PyV.num]
    cases h2; rfl

theorem Ev.evaluateL_ok {ω : Asg} {es : List Ev} {bs : List Bool} (h : Ev.evaluateL ω es = .ok bs) :
    List.Forall₂ (fun e b => e.evaluate ω = .ok b) es bs := by
  induction es generalizing bs with
  | nil => simp [Ev.evaluateL] at h; subst h; exact .nil
  | cons t ts ih =>
    simp only [Ev.evaluateL, bind, Except.bind] at h
    split at h; · cases h
    split at h; · cases h
    cases h
    exact .cons (by assumption) (ih (by assumption))

theorem Tr.evaluate_not_set {ω : Asg} {t : Tr} (hl : t.isLog = false) (h : t.evaluate ω = .ok .set) : False := by
  cases t <;> simp only [Tr.isLog, Tr.evaluate, bind, Except.bind] at hl h
  all_goals first
    | (split at h <;> cases h; done)
    | (split at h; · cases h
       split at h; · cases h
       first
         | (cases h; done)
         | (split at h <;> cases h; done))
    | (cases hl; done)
    | (cases h; done)

theorem Ev.evaluate_sound {ω : Asg} (e : Ev) : e.Evaluable ω → ∀ {b : Bool}, e.evaluate ω = .ok b →
    (b = true ↔ e.holds ω) := by
  refine (sizeInd (P := fun _ => True) (Q := fun e => e.Evaluable ω → ∀ {b : Bool}, e.evaluate ω = .ok b →
    (b = true ↔ e.holds ω)) (fun _ _ _ => trivial) ?_).2 e
  clear e
  intro e hT0 ih he b h
  clear hT0
  cases e with
  | ivl t i =>
    simp only [Ev.Evaluable] at he
    simp only [Ev.evaluate, bind, Except.bind] at h
    split at h; · cases h
    rename_i pv hpv
    cases pv with
    | set => exact False.elim (Tr.evaluate_not_set he hpv)
    | val v =>
      have hv := Tr.evaluate_sound t hpv
      rw [Ev.holds_basic (e := .ivl t i) rfl, hv]
      simp only [Option.some.injEq, exists_eq_left', Ev.values]
      cases v with
      | num x =>
        simp only [PyV.isIn] at h
        obtain ⟨b', h1, h2⟩ := C06_contains_num (s := SSet.pc (.ivl i)) (x : EReal) (by simp)
        rw [h1] at h; cases h; exact h2
      | str x => simp only [PyV.isIn] at h; exact C06_contains_str h
  | fin t s =>
    simp only [Ev.Evaluable] at he
    simp only [Ev.evaluate, bind, Except.bind] at h
    split at h; · cases h
    rename_i pv hpv
    cases pv with
    | set => exact False.elim (Tr.evaluate_not_set he hpv)
    | val v =>
      have hv := Tr.evaluate_sound t hpv
      have hvals : (Ev.fin t s).values = optFin s := by cases s <;> rfl
      rw [Ev.holds_basic (e := .fin t s) rfl, hv]
      simp only [Option.some.injEq, exists_eq_left', hvals]
      cases v with
      | num x =>
        simp only [PyV.isIn] at h
        obtain ⟨b', h1, h2⟩ := C06_contains_num (s := optFin s) (x : EReal) (by cases s <;> simp [optFin])
        rw [h1] at h; cases h; exact h2
      | str x => simp only [PyV.isIn] at h; exact C06_contains_str h
  | nom t n =>
    simp only [Ev.Evaluable] at he
    simp only [Ev.evaluate, bind, Except.bind] at h
    split at h; · cases h
    rename_i pv hpv
    cases pv with
    | set => exact False.elim (Tr.evaluate_not_set he.1 hpv)
    | val v =>
      have hv := Tr.evaluate_sound t hpv
      have hvals : (Ev.nom t n).values = optNom n := by cases n <;> rfl
      rw [Ev.holds_basic (e := .nom t n) rfl, hv]
      simp only [Option.some.injEq, exists_eq_left', hvals]
      cases v with
      | num x =>
        simp only [PyV.isIn] at h
        obtain ⟨b', h1, h2⟩ := C06_contains_num (s := optNom n) (x : EReal) (by
          intro m hm
          cases n with
          | none => simp [optNom]
          | some n =>
            refine ⟨?_, by simp [optNom]⟩
            simp only [optNom, ne_eq, SSet.pc.injEq, Piece.nom.injEq]
            rintro rfl
            obtain ⟨y, hy⟩ := he.2 n rfl hm
            rw [hy] at hv; simp at hv)
        rw [h1] at h; cases h; exact h2
      | str x => simp only [PyV.isIn] at h; exact C06_contains_str h
  | or es =>
    simp only [Ev.Evaluable, Ev.evaluableL_iff] at he
    simp only [Ev.evaluate, bind, Except.bind] at h
    split at h; · cases h
    rename_i bs hbs
    cases h
    have hF := Ev.evaluateL_ok hbs
    rw [Ev.holds_or]
    simp only [List.any_eq_true, id]
    constructor
    · rintro ⟨b, hb, rfl⟩
      obtain ⟨e, he', heb⟩ := forall₂_mem_right hF hb
      exact ⟨e, he', (ih e (Ev.sizeOf_or he') (he e he') heb).1 rfl⟩
    · rintro ⟨e, he', hh⟩
      obtain ⟨b, hb, heb⟩ := forall₂_mem_left hF he'
      exact ⟨b, hb, (ih e (Ev.sizeOf_or he') (he e he') heb).2 hh⟩
  | and es =>
    simp only [Ev.Evaluable, Ev.evaluableL_iff] at he
    simp only [Ev.evaluate, bind, Except.bind] at h
    split at h; · cases h
    rename_i bs hbs
    cases h
    have hF := Ev.evaluateL_ok hbs
    rw [Ev.holds_and]
    simp only [List.all_eq_true, id]
    constructor
    · intro hh e he'
      obtain ⟨b, hb, heb⟩ := forall₂_mem_left hF he'
      exact (ih e (Ev.sizeOf_and he') (he e he') heb).1 (hh b hb)
    · intro hh b hb
      obtain ⟨e, he', heb⟩ := forall₂_mem_right hF hb
      exact (ih e (Ev.sizeOf_and he') (he e he') heb).2 (hh e he')

theorem Ev.evaluate_total {ω : Asg} (e : Ev) : e.Plain → e.Typed ω → ∃ b, e.evaluate ω = .ok b := by
  refine (sizeInd (P := fun _ => True) (Q := fun e => e.Plain → e.Typed ω → ∃ b, e.evaluate ω = .ok b)
    (fun _ _ _ => trivial) ?_).2 e
  clear e
  intro e hT0 ih hp ht
  clear hT0
  have lists : ∀ es : List Ev, (∀ e ∈ es, ∃ b, e.evaluate ω = .ok b) → ∃ bs, Ev.evaluateL ω es = .ok bs := by
    intro es
    induction es with
    | nil => intro _; exact ⟨[], rfl⟩
    | cons e es ih =>
      intro h
      obtain ⟨b, hb⟩ := h e (by simp)
      obtain ⟨bs, hbs⟩ := ih fun e he => h e (by simp [he])
      exact ⟨b :: bs, by simp [Ev.evaluateL, hb, hbs, bind, Except.bind]⟩
  cases e with
  | ivl t i =>
    simp only [Ev.Plain] at hp
    simp only [Ev.Typed] at ht
    obtain ⟨x, hx⟩ := ht
    simp only [Ev.evaluate, Tr.evaluate_total t hp hx, bind, Except.bind, PyV.isIn]
    obtain ⟨b, h1, -⟩ := C06_contains_num (s := SSet.pc (.ivl i)) (x : EReal) (by simp)
    exact ⟨b, h1⟩
  | fin t s =>
    simp only [Ev.Plain] at hp
    simp only [Ev.Typed] at ht
    obtain ⟨x, hx⟩ := ht
    simp only [Ev.evaluate, Tr.evaluate_total t hp hx, bind, Except.bind, PyV.isIn]
    obtain ⟨b, h1, -⟩ := C06_contains_num (s := optFin s) (x : EReal) (by cases s <;> simp [optFin])
    exact ⟨b, h1⟩
  | nom t n =>
    simp only [Ev.Plain] at hp
    simp only [Ev.Typed] at ht
    obtain ⟨x, hx⟩ := ht
    simp only [Ev.evaluate, Tr.evaluate_total t hp hx, bind, Except.bind, PyV.isIn]
    cases n with
    | none => exact ⟨_, rfl⟩
    | some n => exact ⟨_, rfl⟩
  | or es =>
    simp only [Ev.Plain, Ev.plainL_iff] at hp
    simp only [Ev.Typed, Ev.typedL_iff] at ht
    obtain ⟨bs, hbs⟩ := lists es fun e he => ih e (Ev.sizeOf_or he) (hp e he) (ht e he)
    simp [Ev.evaluate, hbs, bind, Except.bind]
  | and es =>
    simp only [Ev.Plain, Ev.plainL_iff] at hp
    simp only [Ev.Typed, Ev.typedL_iff] at ht
    obtain ⟨bs, hbs⟩ := lists es fun e he => ih e (Ev.sizeOf_and he) (hp e he) (ht e he)
    simp [Ev.evaluate, hbs, bind, Except.bind]

end Sppl
