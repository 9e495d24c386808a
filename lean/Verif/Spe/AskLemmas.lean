import Verif.Spe.Props
import Verif.Spe.CondProps

set_option linter.all false

/-!
# Events closed under the operators (helper lemmas)
-/

namespace Sppl
open Classical MeasureTheory

/-- The basic event compares no variable in `A` with strings, not even inside an expression. -/
def Clean (A : Finset String) (l : Ev) : Prop := (∃ k ∈ l.symbols, k ∈ A) → l.NoNom

/-- The basic event is not `t << EmptySet` of the nominal kind (`~` of an event that holds for all strings). -/
def NomSome : Ev → Prop
  | .nom _ none => False
  | _ => True

/-- Events built by a user, that compare strings with plain variables only, and compare no variable in `A` with strings. -/
structure Ev.Proper (c : Ctx) (A : Finset String) (e : Ev) : Prop where
  made : e.Made c
  nomId : e.All NomId
  clean : e.All (Clean A)

theorem simplify_kind {op : SSet EReal → SSet EReal → Res (SSet EReal)} {e f g : Ev}
    (h : Ev.simplify op e f = .ok (some g)) (hv : g.Valid) (hsub : ∀ v ∈ g.values.den, v ∈ e.values.den ∨ v ∈ f.values.den) :
    ∃ t, e.basic? = some t ∧ f.basic? = some t ∧ g.basic? = some t ∧ (g.isNom = true → e.isNom = true ∨ f.isNom = true) ∧ NomSome g := by
  obtain ⟨t, r, h1, h2, h3, h4, h5⟩ := Ev.simplify_some h
  obtain ⟨t', r', h6⟩ := Ev.simplify_ofSet h
  refine ⟨t, h1, h2, h4, ?_, ?_⟩
  · intro hn
    cases g with
    | nom t' v =>
      simp [Ev.basic?] at h4; subst h4
      cases v with
      | none => exact absurd h6 Ev.ofSet_ne_none
      | some n =>
        cases hv with
        | nom hn =>
          obtain ⟨x, hx⟩ := nom_has_str (hn n rfl)
          rcases hsub _ (by simpa [Ev.values] using hx) with hx' | hx'
          · obtain ⟨m, rfl, -⟩ := Ev.isNom_of_str h1 hx'; exact .inl rfl
          · obtain ⟨m, rfl, -⟩ := Ev.isNom_of_str h2 hx'; exact .inr rfl
    | _ => simp [Ev.isNom] at hn
  · cases g with
    | nom t' v =>
      cases v with
      | none => exact absurd h6 Ev.ofSet_ne_none
      | some n => trivial
    | _ => trivial

theorem noNom_lit {e : Ev} {t : Tr} (h : e.basic? = some t) : e.NoNom ↔ t.NoNom ∧ e.isNom = false := by
  cases e with
  | or => simp [Ev.basic?] at h
  | and => simp [Ev.basic?] at h
  | ivl t' i => simp [Ev.basic?] at h; subst h; exact ⟨fun h => by cases h; exact ⟨‹_›, rfl⟩, fun h => .ivl h.1⟩
  | fin t' i => simp [Ev.basic?] at h; subst h; exact ⟨fun h => by cases h; exact ⟨‹_›, rfl⟩, fun h => .fin h.1⟩
  | nom t' i => exact ⟨(fun h => by cases h), (fun h => by simp [Ev.isNom] at h)⟩

theorem clean_combine {A : Finset String} {op : SSet EReal → SSet EReal → Res (SSet EReal)} {e f g : Ev}
    (h : Ev.simplify op e f = .ok (some g)) (hv : g.Valid) (hsub : ∀ v ∈ g.values.den, v ∈ e.values.den ∨ v ∈ f.values.den)
    (he : Clean A e) (hf : Clean A f) : Clean A g := by
  obtain ⟨t, h1, h2, h3, h4, -⟩ := simplify_kind h hv hsub
  intro hk
  rw [symbols_of_basic h3] at hk
  have a := (noNom_lit h1).1 (he (by rw [symbols_of_basic h1]; exact hk))
  have b := (noNom_lit h2).1 (hf (by rw [symbols_of_basic h2]; exact hk))
  refine (noNom_lit h3).2 ⟨a.1, ?_⟩
  by_contra hg
  rcases h4 (by simpa using hg) with h | h
  · rw [a.2] at h; cases h
  · rw [b.2] at h; cases h

/-- A predicate on valid basic events that is stable under combination. -/
theorem valid_and {P : Ev → Prop} {c : Ctx} (hP : ∀ {e f g : Ev}, Ev.simplify (SSet.and c.σ) e f = .ok (some g) → g.Valid →
    (∀ v ∈ g.values.den, v ∈ e.values.den ∨ v ∈ f.values.den) → P e → P f → P g) : ∀ e f g : Ev, (e.Valid ∧ P e) → (f.Valid ∧ P f) →
    Ev.simplify (SSet.and c.σ) e f = .ok (some g) → g.Valid ∧ P g := by
  rintro e f g ⟨he, he'⟩ ⟨hf, hf'⟩ h
  obtain ⟨t, r, h1, h2, h3, h4, h5⟩ := Ev.simplify_some h
  have := SSet.and_spec c.σ _ _ ((Ev.valid_basic h1).1 he) (Ev.values_disj h1) ((Ev.valid_basic h2).1 hf) (Ev.values_disj h2) h3
  have hv : g.Valid := (Ev.valid_basic h4).2 (h5 ▸ this.wf)
  exact ⟨hv, hP h hv (fun v hv => by rw [h5] at hv; exact .inl (this.sub _ hv).1) he' hf'⟩

theorem valid_or {P : Ev → Prop} {c : Ctx} (hP : ∀ {e f g : Ev}, Ev.simplify (SSet.or c.σ) e f = .ok (some g) → g.Valid →
    (∀ v ∈ g.values.den, v ∈ e.values.den ∨ v ∈ f.values.den) → P e → P f → P g) : ∀ e f g : Ev, (e.Valid ∧ P e) → (f.Valid ∧ P f) →
    Ev.simplify (SSet.or c.σ) e f = .ok (some g) → g.Valid ∧ P g := by
  rintro e f g ⟨he, he'⟩ ⟨hf, hf'⟩ h
  obtain ⟨t, r, h1, h2, h3, h4, h5⟩ := Ev.simplify_some h
  have := SSet.or_spec c.σ _ _ ((Ev.valid_basic h1).1 he) (Ev.values_disj h1) ((Ev.valid_basic h2).1 hf) (Ev.values_disj h2) h3
  have hv : g.Valid := (Ev.valid_basic h4).2 (h5 ▸ this.wf)
  exact ⟨hv, hP h hv (fun v hv => by rw [h5] at hv; exact this.sub _ hv) he' hf'⟩

theorem Ev.Proper.land {c : Ctx} {A : Finset String} {e f g : Ev} (he : e.Proper c A) (hf : f.Proper c A) (h : e.land c f = .ok g) : g.Proper c A := by
  have ve := Ev.Made.valid _ he.made
  have vf := Ev.Made.valid _ hf.made
  refine ⟨Ev.land_made he.made hf.made h, Ev.land_nomId ve vf he.nomId hf.nomId h, ?_⟩
  exact (Ev.land_all (valid_and (P := Clean A) (fun h hv hs => clean_combine h hv hs)) ((Ev.valid_all ve).and' he.clean) ((Ev.valid_all vf).and' hf.clean) h).mono
    (fun _ _ _ h => h.2)

theorem Ev.Proper.lor {c : Ctx} {A : Finset String} {e f g : Ev} (he : e.Proper c A) (hf : f.Proper c A) (h : e.lor c f = .ok g) : g.Proper c A := by
  have ve := Ev.Made.valid _ he.made
  have vf := Ev.Made.valid _ hf.made
  refine ⟨Ev.lor_made he.made hf.made h, Ev.lor_nomId ve vf he.nomId hf.nomId h, ?_⟩
  exact (Ev.lor_all (valid_or (P := Clean A) (fun h hv hs => clean_combine h hv hs)) ((Ev.valid_all ve).and' he.clean) ((Ev.valid_all vf).and' hf.clean) h).mono
    (fun _ _ _ h => h.2)

theorem Ev.Proper.not {c : Ctx} {A : Finset String} {e g : Ev} (he : e.Proper c A) (h : e.not c = .ok g) : g.Proper c A := by
  have ve := Ev.Made.valid _ he.made
  have := Ev.not_made he.made he.nomId h
  refine ⟨this.1, this.2, ?_⟩
  refine (Ev.not_all' (Q := fun l => l.Valid ∧ Clean A l) (P := fun l => l.Valid ∧ Clean A l) (valid_and (P := Clean A) (fun h hv hs => clean_combine h hv hs))
    (valid_or (P := Clean A) (fun h hv hs => clean_combine h hv hs)) ?_ e ((Ev.valid_all ve).and' he.clean) h).mono (fun _ _ _ h => h.2)
  rintro e g t ht ⟨h1, h2⟩ h
  refine ((Ev.not_lit ht h1 h).and' (Ev.valid_all (Ev.not_spec e h1 h).1)).mono ?_
  rintro l u - ⟨⟨h6, h7⟩, h8⟩
  refine ⟨h8, fun hk => ?_⟩
  rw [symbols_of_basic h6, ← symbols_of_basic ht] at hk
  have := (noNom_lit ht).1 (h2 hk)
  exact (noNom_lit h6).2 ⟨this.1, by rw [h7]; exact this.2⟩

/-! ## Kinds -/

/-- The variables of the event have values, of the right kind. -/
theorem suits_iff {ω : Asg} : ∀ {e : Ev}, e.Suits ω ↔ e.All (fun l => WK ω l ∧ ∀ k ∈ l.symbols, ω k ≠ none) := by
  intro e
  induction e using Ev.ind with
  | lit e t ht =>
    rw [Ev.all_lit ht]
    cases e with
    | or => simp [Ev.basic?] at ht
    | and => simp [Ev.basic?] at ht
    | ivl t' i =>
      simp only [Ev.Suits, WK, Ev.symbols]
      exact ⟨fun h => ⟨h, fun k hk => by obtain ⟨x, hx⟩ := h k hk; simp [hx]⟩, fun h => h.1⟩
    | fin t' v =>
      cases v with
      | none => simp [Ev.Suits, WK, Ev.symbols]
      | some s =>
        simp only [Ev.Suits, WK, Ev.symbols]
        exact ⟨fun h => ⟨h, fun k hk => by obtain ⟨x, hx⟩ := h k hk; simp [hx]⟩, fun h => h.1⟩
    | nom t' v =>
      simp only [Ev.Suits, WK, Ev.symbols]
      refine ⟨fun h => ⟨h, ?_⟩, fun h => h.1⟩
      obtain ⟨s, x, rfl, hx⟩ := h
      intro k hk; simp [Tr.symbols] at hk; subst hk; simp [hx]
  | or es ih =>
    rw [Ev.all_or, Ev.Suits, Ev.suitsL_iff]
    exact ⟨fun h e he => (ih e he).1 (h e he), fun h e he => (ih e he).2 (h e he)⟩
  | and es ih =>
    rw [Ev.all_and, Ev.Suits, Ev.suitsL_iff]
    exact ⟨fun h e he => (ih e he).1 (h e he), fun h e he => (ih e he).2 (h e he)⟩

theorem trOnly_defined (ω : Asg) : TrOnly (fun l => ∀ k ∈ l.symbols, ω k ≠ none) := by
  intro e f t he hf h
  rw [symbols_of_basic he] at h; rw [symbols_of_basic hf]; exact h

theorem suits_combine {ω : Asg} {op : SSet EReal → SSet EReal → Res (SSet EReal)} {e f g : Ev}
    (h : Ev.simplify op e f = .ok (some g)) (hv : g.Valid) (hsub : ∀ v ∈ g.values.den, v ∈ e.values.den ∨ v ∈ f.values.den)
    (he : WK ω e ∧ ∀ k ∈ e.symbols, ω k ≠ none) (hf : WK ω f ∧ ∀ k ∈ f.symbols, ω k ≠ none) : WK ω g ∧ ∀ k ∈ g.symbols, ω k ≠ none :=
  ⟨wk_combine he.1 hf.1 h hv hsub, (trOnly_defined ω).and _ _ _ he.2 hf.2 h⟩

theorem suits_land {c : Ctx} {ω : Asg} {e f g : Ev} (ve : e.Valid) (vf : f.Valid) (he : e.Suits ω) (hf : f.Suits ω) (h : e.land c f = .ok g) : g.Suits ω := by
  rw [suits_iff] at *
  exact (Ev.land_all (valid_and (P := fun l => WK ω l ∧ ∀ k ∈ l.symbols, ω k ≠ none) (fun h hv hs => suits_combine h hv hs)) ((Ev.valid_all ve).and' he) ((Ev.valid_all vf).and' hf) h).mono
    (fun _ _ _ h => h.2)

theorem suits_lor {c : Ctx} {ω : Asg} {e f g : Ev} (ve : e.Valid) (vf : f.Valid) (he : e.Suits ω) (hf : f.Suits ω) (h : e.lor c f = .ok g) : g.Suits ω := by
  rw [suits_iff] at *
  exact (Ev.lor_all (valid_or (P := fun l => WK ω l ∧ ∀ k ∈ l.symbols, ω k ≠ none) (fun h hv hs => suits_combine h hv hs)) ((Ev.valid_all ve).and' he) ((Ev.valid_all vf).and' hf) h).mono
    (fun _ _ _ h => h.2)

theorem typed_defined' {c : Ctx} {ω : Asg} {e : Ev} (hm : e.Made c) (hn : e.All NomId) (hT : e.Typed ω) : e.All (fun l => ∀ k ∈ l.symbols, ω k ≠ none) :=
  (((Ev.made_all.1 hm).2.and' hn).and' (Ev.typed_all.1 hT)).mono (by
    rintro l t ht ⟨⟨h1, h2⟩, h3⟩
    exact typed_defined h1 ((Ev.all_lit ht).2 h2) h3)

theorem suits_typed {c : Ctx} {ω : Asg} {e : Ev} (hm : e.Made c) (hn : e.All NomId) (hT : e.Typed ω) : e.Suits ω := by
  rw [suits_iff]
  exact ((typed_wk hm hn hT).and' (typed_defined' hm hn hT)).mono (fun _ _ _ h => ⟨h.1.2, h.2⟩)

theorem suits_not {c : Ctx} {ω : Asg} {e g : Ev} (hm : e.Made c) (hn : e.All NomId) (hT : e.Typed ω) (h : e.not c = .ok g) : g.Suits ω := by
  rw [suits_iff]
  exact ((not_wk hm hn hT h).and' ((trOnly_defined ω).not (Ev.Made.valid _ hm) (typed_defined' hm hn hT) h)).mono (fun _ _ _ h => ⟨h.1.2, h.2⟩)

/-- Typed events stay typed under `|`. -/
theorem typed_lor {c : Ctx} {ω : Asg} {e f g : Ev} (ve : e.Valid) (vf : f.Valid) (he : e.Typed ω) (hf : f.Typed ω)
    (se : e.All NomSome) (sf : f.All NomSome) (h : e.lor c f = .ok g) : g.Typed ω ∧ g.All NomSome := by
  rw [Ev.typed_all] at *
  have := Ev.lor_all (P := fun l => l.Valid ∧ (l.Typed ω ∧ NomSome l)) (c := c) ?_
    ((Ev.valid_all ve).and' (he.and' se)) ((Ev.valid_all vf).and' (hf.and' sf)) h
  · exact ⟨this.mono (fun _ _ _ h => h.2.1), this.mono (fun _ _ _ h => h.2.2)⟩
  · rintro e f g ⟨ve, he, se⟩ ⟨vf, hf, sf⟩ h
    obtain ⟨t, r, h1, h2, h3, h4, h5⟩ := Ev.simplify_some h
    have ok := SSet.or_spec c.σ _ _ ((Ev.valid_basic h1).1 ve) (Ev.values_disj h1) ((Ev.valid_basic h2).1 vf) (Ev.values_disj h2) h3
    have hv : g.Valid := (Ev.valid_basic h4).2 (h5 ▸ ok.wf)
    obtain ⟨t', h1', -, -, h6, h7⟩ := simplify_kind h hv (fun v hv => by rw [h5] at hv; exact ok.sub _ hv)
    refine ⟨hv, ?_, h7⟩
    have key : ∀ {l : Ev}, l.basic? = some t → (l.Typed ω ↔ if l.isNom = true then ∃ x, t.eval ω = some (.str x) else ∃ x, t.eval ω = some (.num x)) := by
      intro l hl
      cases l with
      | or => simp [Ev.basic?] at hl
      | and => simp [Ev.basic?] at hl
      | ivl t' i => simp [Ev.basic?] at hl; subst hl; simp [Ev.Typed, Ev.isNom]
      | fin t' i => simp [Ev.basic?] at hl; subst hl; simp [Ev.Typed, Ev.isNom]
      | nom t' i => simp [Ev.basic?] at hl; subst hl; simp [Ev.Typed, Ev.isNom]
    rw [key h1] at he
    rw [key h2] at hf
    rw [key h4]
    by_cases hg : g.isNom = true
    · rw [if_pos hg]
      rcases h6 hg with hh | hh
      · rwa [if_pos hh] at he
      · rwa [if_pos hh] at hf
    · rw [if_neg hg]
      by_cases h8 : e.isNom = true
      · exfalso
        apply hg
        cases e with
        | nom t1 v1 =>
          cases v1 with
          | none => exact se.elim
          | some n1 =>
            cases ve with
            | nom hn =>
              obtain ⟨x, hx⟩ := nom_has_str (hn n1 rfl)
              have : Val.str x ∈ r.den := ok.sup _ trivial (.inl (by simpa [Ev.values] using hx))
              obtain ⟨m, rfl, -⟩ := Ev.isNom_of_str h4 (x := x) (by rw [h5]; exact this)
              rfl
        | _ => simp [Ev.isNom] at h8
      · rwa [if_neg h8] at he

/-! ## What can be asked -/

theorem noNom_of_all {e : Ev} (h : e.All Ev.NoNom) : e.NoNom := by
  induction h with
  | lit h1 h2 => exact h2
  | or _ ih => exact .or ih
  | and _ ih => exact .and ih

theorem Ev.Proper.nomFree {c : Ctx} {A B : Finset String} {e : Ev} (h : e.Proper c A) (hB : B ⊆ A) : e.NomFree B := by
  rw [nomFree_iff]
  refine h.clean.mono ?_
  intro l t ht hl hn k hk hkB
  have := hl ⟨k, hk, hB hkB⟩
  rw [noNom_lit ht] at this
  rw [this.2] at hn; cases hn

theorem Ev.Proper.canAsk {c : Ctx} {A : Finset String} {e : Ev} (h : e.Proper c A) {s : Spe} (hs : s.atomSyms ⊆ A) (hv : e.symbols ⊆ s.symbols) : s.CanAsk c e := by
  have hf := h.nomFree hs
  cases s with
  | real => exact made_true.2 e h.made
  | nominal => exact h.made
  | sum => exact ⟨h.made, hf⟩
  | prod => exact ⟨h.made, hf⟩
  | atomic X v env =>
    refine ⟨made_true.2 e h.made, noNom_of_all (((h.clean.and' (Ev.symbols_all.1 hv)).and' (Ev.made_all.1 h.made).2).mono ?_)⟩
    rintro l t ht ⟨⟨h1, h2⟩, h3⟩
    obtain ⟨k, hk⟩ := made_symbols (made_tr h3 ht)
    rw [symbols_of_basic ht] at h2
    refine h1 ⟨k, by rw [symbols_of_basic ht, hk]; simp, hs ?_⟩
    have : k ∈ (Spe.atomic X v env).symbols := h2 (by rw [hk]; simp)
    simpa [Spe.atomSyms, Spe.symbols] using this

theorem Ev.Proper.asks {c : Ctx} {A : Finset String} {e : Ev} (h : e.Proper c A) {μ : Dist → Measure ℝ} {s : Spe} (hs : s.atomSyms ⊆ A)
    (hv : e.symbols ⊆ s.symbols) (hr : ∀ᵐ ω ∂(s.den μ), e.Regular ω) : Asks c μ s e := ⟨h.canAsk hs hv, hv, hr⟩

end Sppl
