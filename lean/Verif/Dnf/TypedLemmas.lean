import Verif.Dnf.NormLemmas

set_option linter.all false

/-!
# Helper lemmas: kinds of variables are preserved by `dnf_normalize`
-/

namespace Sppl
open Classical

/-- The variables of the basic event have values of the right kind. -/
def WK (ω : Asg) : Ev → Prop
  | .ivl t _ => ∀ s ∈ t.symbols, ∃ x, ω s = some (.num x)
  | .fin t (some _) => ∀ s ∈ t.symbols, ∃ x, ω s = some (.num x)
  | .nom t _ => ∃ s x, t = .id s ∧ ω s = some (.str x)
  | _ => True

/-- Basic events with a number among their values. -/
theorem Ev.real_of_num {e : Ev} {t : Tr} (ht : e.basic? = some t) {x : EReal} (h : Val.num x ∈ e.values.den) :
    (∃ i, e = .ivl t i) ∨ ∃ s, e = .fin t (some s) := by
  cases e with
  | or => simp [Ev.basic?] at ht
  | and => simp [Ev.basic?] at ht
  | ivl t' i => simp [Ev.basic?] at ht; subst ht; exact .inl ⟨i, rfl⟩
  | fin t' v =>
    simp [Ev.basic?] at ht; subst ht
    cases v with
    | none => simp [Ev.values] at h
    | some s => exact .inr ⟨s, rfl⟩
  | nom t' v => cases v <;> simp [Ev.values] at h

theorem wk_combine {ω : Asg} {op : SSet EReal → SSet EReal → Res (SSet EReal)} {e f g : Ev} (he' : WK ω e) (hf' : WK ω f)
    (h : Ev.simplify op e f = .ok (some g)) (hv : g.Valid) (hsub : ∀ v ∈ g.values.den, v ∈ e.values.den ∨ v ∈ f.values.den) : WK ω g := by
  obtain ⟨t, r, h1, h2, h3, h4, h5⟩ := Ev.simplify_some h
  obtain ⟨t', r', h6⟩ := Ev.simplify_ofSet h
  have real : (∃ x, Val.num x ∈ g.values.den) → ∀ s ∈ t.symbols, ∃ x, ω s = some (.num x) := by
    rintro ⟨x, hx⟩
    rcases hsub _ hx with hx | hx
    · rcases Ev.real_of_num h1 hx with ⟨i, rfl⟩ | ⟨s, rfl⟩
      · exact he'
      · exact he'
    · rcases Ev.real_of_num h2 hx with ⟨i, rfl⟩ | ⟨s, rfl⟩
      · exact hf'
      · exact hf'
  cases g with
  | or => simp [Ev.basic?] at h4
  | and => simp [Ev.basic?] at h4
  | ivl t' i =>
    simp [Ev.basic?] at h4; subst h4
    cases hv with
    | ivl hi =>
      obtain ⟨x, hx⟩ := (Ivl.WF.infinite hi).nonempty
      exact real ⟨x, by simpa [Ev.values] using hx⟩
  | fin t' v =>
    simp [Ev.basic?] at h4; subst h4
    cases v with
    | none => trivial
    | some s =>
      cases hv with
      | fin hi =>
        obtain ⟨x, hx⟩ := hi s rfl
        exact real ⟨x, by simpa [Ev.values] using hx⟩
  | nom t' v =>
    simp [Ev.basic?] at h4; subst h4
    cases v with
    | none => exact absurd h6 Ev.ofSet_ne_none
    | some n =>
      cases hv with
      | nom hn =>
        obtain ⟨x, hx⟩ := nom_has_str (hn n rfl)
        rcases hsub _ (by simpa [Ev.values] using hx) with hx' | hx'
        · obtain ⟨m, rfl, -⟩ := Ev.isNom_of_str h1 hx'; exact he'
        · obtain ⟨m, rfl, -⟩ := Ev.isNom_of_str h2 hx'; exact hf'

theorem wk_and {c : Ctx} {ω : Asg} : ∀ e f g : Ev, (e.Valid ∧ WK ω e) → (f.Valid ∧ WK ω f) →
    Ev.simplify (SSet.and c.σ) e f = .ok (some g) → g.Valid ∧ WK ω g := by
  rintro e f g ⟨he, he'⟩ ⟨hf, hf'⟩ h
  obtain ⟨t, r, h1, h2, h3, h4, h5⟩ := Ev.simplify_some h
  have := SSet.and_spec c.σ _ _ ((Ev.valid_basic h1).1 he) (Ev.values_disj h1) ((Ev.valid_basic h2).1 hf) (Ev.values_disj h2) h3
  have hv : g.Valid := (Ev.valid_basic h4).2 (h5 ▸ this.wf)
  exact ⟨hv, wk_combine he' hf' h hv (fun v hv => by rw [h5] at hv; exact .inl (this.sub _ hv).1)⟩

theorem wk_or {c : Ctx} {ω : Asg} : ∀ e f g : Ev, (e.Valid ∧ WK ω e) → (f.Valid ∧ WK ω f) →
    Ev.simplify (SSet.or c.σ) e f = .ok (some g) → g.Valid ∧ WK ω g := by
  rintro e f g ⟨he, he'⟩ ⟨hf, hf'⟩ h
  obtain ⟨t, r, h1, h2, h3, h4, h5⟩ := Ev.simplify_some h
  have := SSet.or_spec c.σ _ _ ((Ev.valid_basic h1).1 he) (Ev.values_disj h1) ((Ev.valid_basic h2).1 hf) (Ev.values_disj h2) h3
  have hv : g.Valid := (Ev.valid_basic h4).2 (h5 ▸ this.wf)
  exact ⟨hv, wk_combine he' hf' h hv (fun v hv => by rw [h5] at hv; exact this.sub _ hv)⟩

theorem made_symbols {c : Ctx} {t : Tr} : t.Made c → ∃ s, t.symbols = {s} := by
  refine (sizeInd (P := fun t => t.Made c → ∃ s, t.symbols = {s}) (Q := fun _ => True) ?_ (fun _ _ _ => trivial)).1 t
  intro t ih _ hm
  have hne := (Made.symbols_nonempty c).1 t hm
  cases hm with
  | id s => exact ⟨s, rfl⟩
  | pw h1 h2 h3 =>
    obtain ⟨-, -, hc, -⟩ := mkPiecewise_ok h3
    simp only [Tr.symbols] at hne ⊢
    exact Finset.card_eq_one.1 (le_antisymm hc (Finset.card_pos.2 hne))
  | _ => simp only [Tr.symbols]; exact ih _ (by simp only [Tr.radical.sizeOf_spec, Tr.exp.sizeOf_spec, Tr.log.sizeOf_spec, Tr.abs.sizeOf_spec, Tr.recip.sizeOf_spec, Tr.poly.sizeOf_spec]; omega) (by assumption)

/-- Typed basic events have variables of the right kind, and so have their negations. -/
theorem typed_kind {c : Ctx} {ω : Asg} {e : Ev} {t : Tr} (ht : e.basic? = some t) (hm : e.Made c) (hn : NomId e) (hT : e.Typed ω) :
    (e.isNom = false → ∀ s ∈ t.symbols, ∃ x, ω s = some (.num x)) ∧ (e.isNom = true → ∃ s x, t = .id s ∧ ω s = some (.str x)) := by
  obtain ⟨k, hk⟩ := made_symbols (made_tr hm ht)
  have num : (∃ x, t.eval ω = some (.num x)) → ∀ s ∈ t.symbols, ∃ x, ω s = some (.num x) := by
    rintro ⟨x, hx⟩ s hs
    obtain ⟨s', hs', h⟩ := (Tr.eval_sym t).1 x hx
    rw [hk, Finset.mem_singleton] at hs hs'
    rw [hs, ← hs']; exact h
  cases e with
  | or => simp [Ev.basic?] at ht
  | and => simp [Ev.basic?] at ht
  | ivl t' i => simp [Ev.basic?] at ht; subst ht; exact ⟨fun _ => num hT, by simp [Ev.isNom]⟩
  | fin t' i => simp [Ev.basic?] at ht; subst ht; exact ⟨fun _ => num hT, by simp [Ev.isNom]⟩
  | nom t' v =>
    simp [Ev.basic?] at ht; subst ht
    refine ⟨by simp [Ev.isNom], fun _ => ?_⟩
    cases t' <;> simp [NomId, Tr.isId] at hn
    obtain ⟨x, hx⟩ := hT
    exact ⟨_, x, rfl, hx⟩

theorem wk_of_kind {ω : Asg} {l : Ev} {t : Tr} (hl : l.basic? = some t) (h1 : l.isNom = false → ∀ s ∈ t.symbols, ∃ x, ω s = some (.num x))
    (h2 : l.isNom = true → ∃ s x, t = .id s ∧ ω s = some (.str x)) : WK ω l := by
  cases l with
  | or => trivial
  | and => trivial
  | ivl t' i => simp [Ev.basic?] at hl; subst hl; exact h1 rfl
  | fin t' v =>
    simp [Ev.basic?] at hl; subst hl
    cases v with
    | none => trivial
    | some => exact h1 rfl
  | nom t' v => simp [Ev.basic?] at hl; subst hl; exact h2 rfl

theorem typed_wk {c : Ctx} {ω : Asg} {e : Ev} (hm : e.Made c) (hn : e.All NomId) (hT : e.Typed ω) : e.All (fun l => l.Valid ∧ WK ω l) := by
  refine (((Ev.made_all.1 hm).2.and' hn).and' (Ev.typed_all.1 hT)).mono ?_
  rintro l t ht ⟨⟨h1, h2⟩, h3⟩
  obtain ⟨h4, h5⟩ := typed_kind ht h1 h2 h3
  exact ⟨Ev.Made.valid _ h1, wk_of_kind ht h4 h5⟩

theorem not_wk {c : Ctx} {ω : Asg} {e g : Ev} (hm : e.Made c) (hn : e.All NomId) (hT : e.Typed ω) (h : e.not c = .ok g) :
    g.All (fun l => l.Valid ∧ WK ω l) := by
  refine Ev.not_all' (Q := fun l => (l.Made c ∧ NomId l) ∧ l.Typed ω) wk_and wk_or ?_ e
    (((Ev.made_all.1 hm).2.and' hn).and' (Ev.typed_all.1 hT)) h
  rintro e g t ht ⟨⟨h1, h2⟩, h3⟩ h
  obtain ⟨h4, h5⟩ := typed_kind ht h1 h2 h3
  have hv := Ev.Made.valid _ h1
  refine ((Ev.not_lit ht hv h).and' (Ev.valid_all (Ev.not_spec e hv h).1)).mono ?_
  rintro l u - ⟨⟨h6, h7⟩, h8⟩
  exact ⟨h8, wk_of_kind h6 (by rw [h7]; exact h4) (by rw [h7]; exact h5)⟩

/-- The set is of the kind of the value of the variable. -/
def KindS (ω : Asg) (s : String) (S : SSet EReal) : Prop :=
  ((∃ x, ω s = some (.num x)) ∧ ∀ x, Val.str x ∉ S.den) ∨ ((∃ x, ω s = some (.str x)) ∧ ∀ x, Val.num x ∉ S.den)

theorem invert_fin_none {c : Ctx} {n : ℕ} {t : Tr} {S : SSet EReal} (h : Ev.invert c n (.fin t none) (.pc (.fin {1})) = .ok S) :
    S = .empty := by
  obtain ⟨m, -, h⟩ := Ev.invert_one h
  simp only [Ev.invertFinite, bind, Except.bind] at h
  split at h; · cases h
  rename_i xs hxs
  split at h; · cases h
  rename_i u hu
  have hx : ∀ x ∈ xs, x = .empty := by
    intro x hx
    obtain ⟨y, hy, hyx⟩ := forall₂_mem_right (mapM_ok hxs) hx
    have : y = 1 := by simpa using (c.mem_iter {1} y).1 hy
    subst this
    simp [Ev.finvReal, optFin] at hyx; exact hyx.symm
  have hu' : u = .empty := by
    refine reduceM_ind (Q := fun u => u = .empty) ?_ hx hu
    rintro x y z rfl rfl hz
    simp [SSet.or] at hz; exact hz.symm
  subst hu'
  cases m with
  | zero => simp [Tr.invert] at h
  | succ m =>
    simp only [Tr.invert, bind, Except.bind] at h
    split at h; · cases h
    rename_i rr hrr
    have : SSet.and c.σ rr .empty = .ok .empty := by cases rr <;> rfl
    simp only [this, Tr.invertStep] at h
    cases h; rfl

theorem solve_strings {c : Ctx} {n : ℕ} {ev : Ev} (hcl : ev.IsClause) (hv : ev.Valid) {k : String}
    (ha : ev.All (fun l => (∃ v, l = .nom (.id k) v) ∨ ∃ t, l = .fin t none)) {S : SSet EReal} (h : ev.solve c n = .ok S) :
    ∀ x, Val.num x ∉ S.den := by
  have lit : ∀ {l : Ev} {m : ℕ} {T : SSet EReal}, l.Valid → ((∃ v, l = .nom (.id k) v) ∨ ∃ t, l = .fin t none) →
      Ev.invert c m l (.pc (.fin {1})) = .ok T → T.WF ∧ T.Disj ∧ ∀ x, Val.num x ∉ T.den := by
    intro l m T hv hl hT
    rcases hl with ⟨v, rfl⟩ | ⟨t, rfl⟩
    · obtain ⟨m', -, hT⟩ := Ev.invert_one hT
      have e1 : ({1} : Finset EReal) ≠ {0} := by
        intro h; rw [Finset.singleton_inj] at h; exact one_ne_zero h
      simp only [Ev.invertFinite, e1, if_false, if_true, Ev.finvNom, Tr.isId] at hT
      cases hv with
      | nom hv =>
        cases v with
        | none => simp at hT; subst hT; exact ⟨trivial, trivial, by simp⟩
        | some n => simp at hT; subst hT; exact ⟨hv n rfl, trivial, by simp⟩
    · rw [invert_fin_none hT]; exact ⟨trivial, trivial, by simp⟩
  have gen : ∀ {l : Ev} {T : SSet EReal}, l.IsLit → l.Valid → ((∃ v, l = .nom (.id k) v) ∨ ∃ t, l = .fin t none) →
      l.solve c n = .ok T → ∀ x, Val.num x ∉ T.den := by
    intro l T _ hv hl hT
    rcases hl with ⟨v, rfl⟩ | ⟨t, rfl⟩
    · simp only [Ev.solve] at hT
      cases hT
      cases v <;> simp [optNom]
    · unfold Ev.solve at hT
      split at hT
      all_goals first | contradiction | skip
      · cases hT; rename_i heq; cases heq; simp [optFin]
      · split at hT
        · cases hT
        · rw [invert_fin_none hT]; simp
  cases ev with
  | or => exact False.elim hcl
  | and es =>
    simp only [Ev.solve] at h
    split at h; · cases h
    obtain ⟨m, -, h⟩ := Ev.invert_one h
    simp only [Ev.invertFinite, bind, Except.bind] at h
    split at h; · cases h
    rename_i xs hxs
    have hF := mapM_ok hxs
    have hx : ∀ x ∈ xs, x.WF ∧ x.Disj ∧ ∀ y, Val.num y ∉ x.den := by
      intro x hx
      obtain ⟨l, hl, hlx⟩ := forall₂_mem_right hF hx
      obtain ⟨t, ht⟩ := Ev.isLit_iff.1 (hcl.2 l hl)
      cases hv with
      | and _ hv => exact lit (hv l hl) ((Ev.all_lit ht).1 (Ev.all_and.1 ha l hl)) hlx
    refine (reduceM_ind (Q := fun (x : SSet EReal) => x.WF ∧ x.Disj ∧ ∀ y, Val.num y ∉ x.den) ?_ hx h).2.2
    rintro x y z ⟨h1, h2, h3⟩ ⟨h4, h5, h6⟩ hz
    have := SSet.and_spec c.σ x y h1 h2 h4 h5 hz
    exact ⟨this.wf, this.disj, fun v hv => h3 v (this.sub _ hv).1⟩
  | ivl t i => exact gen (l := .ivl t i) trivial hv ((Ev.all_lit rfl).1 ha) h
  | fin t i => exact gen (l := .fin t i) trivial hv ((Ev.all_lit rfl).1 ha) h
  | nom t i => exact gen (l := .nom t i) trivial hv ((Ev.all_lit rfl).1 ha) h

theorem solve_kind {c : Ctx} (hc : c.Correct) {n : ℕ} {ev : Ev} (hcl : ev.IsClause) (hm : ev.Made c) {k : String}
    (hk : ev.symbols = {k}) {ω : Asg} (hw : ev.All (WK ω)) (hdef : ω k ≠ none) {S : SSet EReal} (h : ev.solve c n = .ok S) :
    KindS ω k S := by
  have hv := Ev.Made.valid _ hm
  have hsym : ev.All (fun l => l.symbols ⊆ {k}) := (Ev.symbols_all).1 (by rw [hk])
  cases hω : ω k with
  | none => exact absurd hω hdef
  | some v =>
    cases v with
    | num y =>
      refine .inl ⟨⟨y, hω⟩, fun x hx => ?_⟩
      have hno : ∀ s z, (fun _ => some (Val.str x) : Asg) s ≠ some (.num z) := by intro s z; simp
      have := ((Ev.solve_exact hc hm h).2.2 (fun _ => some (.str x)) k (.str x) hk rfl (by simp) ((regular_str hno).2 ev)).1 hx
      obtain ⟨l, t, ht, ⟨h1, h2⟩, h3⟩ := Ev.holds_lit ev hv (hw.and' hsym) this
      rw [Ev.holds_basic ht] at h3
      obtain ⟨v, hv1, hv2⟩ := h3
      cases v with
      | num z =>
        obtain ⟨s, -, z', hz'⟩ := (Tr.eval_sym t).1 z hv1
        simp at hz'
      | str z =>
        obtain ⟨m, rfl, -⟩ := Ev.isNom_of_str ht hv2
        obtain ⟨s, z', rfl, hs⟩ := h1
        simp only [Ev.symbols, Tr.symbols, Finset.singleton_subset_iff, Finset.mem_singleton] at h2
        subst h2
        rw [hω] at hs; simp at hs
    | str y =>
      refine .inr ⟨⟨y, hω⟩, solve_strings (k := k) hcl hv ?_ h⟩
      refine ((hw.and' hsym).and' (Ev.made_all.1 hm).2).mono ?_
      rintro l t ht ⟨⟨h1, h2⟩, h3⟩
      have hne := (Made.symbols_nonempty c).2 l h3
      have hks : k ∈ t.symbols := by
        obtain ⟨s, hs⟩ := hne
        have := Finset.mem_singleton.1 (h2 hs); subst this
        rwa [symbols_of_basic ht] at hs
      cases l with
      | or => simp [Ev.basic?] at ht
      | and => simp [Ev.basic?] at ht
      | ivl t' i =>
        simp [Ev.basic?] at ht; subst ht
        obtain ⟨x, hx⟩ := h1 k hks
        rw [hω] at hx; simp at hx
      | fin t' v =>
        simp [Ev.basic?] at ht; subst ht
        cases v with
        | none => exact .inr ⟨t', rfl⟩
        | some s =>
          obtain ⟨x, hx⟩ := h1 k hks
          rw [hω] at hx; simp at hx
      | nom t' v =>
        simp [Ev.basic?] at ht; subst ht
        obtain ⟨s, z', rfl, hs⟩ := h1
        simp only [Ev.symbols, Tr.symbols, Finset.singleton_subset_iff, Finset.mem_singleton] at h2
        subst h2
        exact .inl ⟨v, rfl⟩

/-- A basic event about a plain variable whose value has the right kind. -/
def GoodL (ω : Asg) (l : Ev) : Prop := ∃ s, l.basic? = some (.id s) ∧
  (((∃ x, ω s = some (.num x)) ∧ l.isNom = false) ∨ ((∃ x, ω s = some (.str x)) ∧ ∃ n, l = .nom (.id s) (some n)))

theorem GoodL.typed {ω : Asg} {l : Ev} (h : GoodL ω l) : l.Typed ω := by
  obtain ⟨s, h1, ⟨⟨x, hx⟩, h2⟩ | ⟨⟨x, hx⟩, n, rfl⟩⟩ := h
  · cases l with
    | or => simp [Ev.basic?] at h1
    | and => simp [Ev.basic?] at h1
    | ivl t i => simp [Ev.basic?] at h1; subst h1; exact ⟨x, hx⟩
    | fin t i => simp [Ev.basic?] at h1; subst h1; exact ⟨x, hx⟩
    | nom t i => simp [Ev.isNom] at h2
  · exact ⟨x, hx⟩

theorem no_str {l : Ev} {t : Tr} (ht : l.basic? = some t) (h : l.isNom = false) (x : String) : Val.str x ∉ l.values.den := by
  intro hx
  obtain ⟨n, rfl, -⟩ := Ev.isNom_of_str ht hx
  simp [Ev.isNom] at h

theorem goodL_or {c : Ctx} {ω : Asg} : ∀ e f g : Ev, (e.Valid ∧ GoodL ω e) → (f.Valid ∧ GoodL ω f) →
    Ev.simplify (SSet.or c.σ) e f = .ok (some g) → g.Valid ∧ GoodL ω g := by
  rintro e f g ⟨he, s, he1, he2⟩ ⟨hf, s', hf1, hf2⟩ h
  obtain ⟨t, r, h1, h2, h3, h4, h5⟩ := Ev.simplify_some h
  rw [he1] at h1; cases h1
  rw [hf1] at h2; cases h2
  have := SSet.or_spec c.σ _ _ ((Ev.valid_basic he1).1 he) (Ev.values_disj he1) ((Ev.valid_basic hf1).1 hf) (Ev.values_disj hf1) h3
  have hv : g.Valid := (Ev.valid_basic h4).2 (h5 ▸ this.wf)
  obtain ⟨t', r', h6⟩ := Ev.simplify_ofSet h
  refine ⟨hv, s, h4, ?_⟩
  rcases he2 with ⟨⟨x, hx⟩, he2⟩ | ⟨⟨x, hx⟩, n, rfl⟩ <;> rcases hf2 with ⟨⟨y, hy⟩, hf2⟩ | ⟨⟨y, hy⟩, m, rfl⟩
  · refine .inl ⟨⟨x, hx⟩, ?_⟩
    cases g with
    | nom t'' v =>
      cases v with
      | none => exact absurd h6 Ev.ofSet_ne_none
      | some n =>
        cases hv with
        | nom hn =>
          obtain ⟨z, hz⟩ := nom_has_str (hn n rfl)
          have hz' : Val.str z ∈ r.den := by rw [← h5]; simpa [Ev.values] using hz
          rcases this.sub _ hz' with h | h
          · exact absurd h (no_str he1 he2 z)
          · exact absurd h (no_str hf1 hf2 z)
    | _ => rfl
  · rw [hx] at hy; simp at hy
  · rw [hx] at hy; simp at hy
  · refine .inr ⟨⟨x, hx⟩, ?_⟩
    have hnum : ∀ z, Val.num z ∉ r.den := by
      intro z hz
      rcases this.sub _ hz with h | h <;> simp [Ev.values] at h
    cases g with
    | or => simp [Ev.basic?] at h4
    | and => simp [Ev.basic?] at h4
    | ivl t' i =>
      cases hv with
      | ivl hi =>
        obtain ⟨z, hz⟩ := (Ivl.WF.infinite hi).nonempty
        exact absurd (by rw [← h5]; simpa [Ev.values] using hz) (hnum z)
    | fin t' v =>
      cases hv with
      | fin hi =>
        cases v with
        | none =>
          cases he with
          | nom hn =>
            obtain ⟨z, hz⟩ := nom_has_str (hn n rfl)
            have := this.sup (.str z) (by trivial) (.inl hz)
            rw [← h5] at this; simp [Ev.values] at this
        | some w =>
          obtain ⟨z, hz⟩ := hi w rfl
          exact absurd (by rw [← h5]; simpa [Ev.values] using hz) (hnum z)
    | nom t' v =>
      simp [Ev.basic?] at h4; subst h4
      cases v with
      | none => exact absurd h6 Ev.ofSet_ne_none
      | some n => exact ⟨n, rfl⟩

/-- `dnf_normalize` returns an event of the right kind. -/
theorem normalizeBody_typed {c : Ctx} (hc : c.Correct) {n : ℕ} {e r : Ev} (hm : e.Made c) (h : normalizeBody c n e = .ok (some r))
    {ω : Asg} (hw : e.All (WK ω)) (hdef : ∀ s ∈ e.symbols, ω s ≠ none) : r.Typed ω := by
  obtain ⟨-, h2⟩ := normalizeBody_ok hc hm h
  obtain ⟨-, -, -, -, h3⟩ := h2 r rfl
  have hv := Ev.Made.valid _ hm
  refine Ev.typed_all.2 ((h3 (fun l => l.Valid ∧ GoodL ω l) goodL_or ?_).mono (fun _ _ _ h => h.2.typed))
  intro d R sols hd hR hsols sol hsol q hq hne p hp l hl1 hl2
  obtain ⟨d', hd1, hd2, hd3, hd4, hd5⟩ := Ev.toDnf_spec hv
  rw [hd] at hd1; cases hd1
  have hdm : d.Made c := Ev.made_all.2 ⟨hd3, hd5 _ (Ev.made_all.1 hm).2⟩
  have hds : d.symbols ⊆ e.symbols := Ev.symbols_all.2 (hd5 _ (Ev.symbols_all.1 (le_refl _)))
  obtain ⟨-, hF⟩ := dnfFactor_ok (P := fun l => l.Made c ∧ (l.Valid ∧ WK ω l)) (by
    rintro e f g ⟨a1, a2⟩ ⟨b1, b2⟩ hs
    exact ⟨made_and _ _ _ a1 b1 hs, wk_and _ _ _ a2 b2 hs⟩) hd3
    ((Ev.made_all.1 hdm).2.and' ((Ev.valid_all hd3).and' (hd5 _ hw))) hR
  obtain ⟨m, hm1, hm2⟩ := forall₂_mem_right (mapM_ok hsols) hsol
  obtain ⟨cl, -, hf, -, -⟩ := forall₂_mem_right hF hm1
  obtain ⟨pe, hpe, hq1, hq2⟩ := forall₂_mem_right (solveClause_ok hm2) hq
  have hpm : pe.2.Made c := Ev.made_all.2 ⟨hf.valid pe hpe, (hf.allP pe hpe).mono (fun _ _ _ h => h.1)⟩
  have hk := solve_kind hc (hf.clause pe hpe) hpm (hf.symbols hpe).1 ((hf.allP pe hpe).mono (fun _ _ _ h => h.2.2))
    (hdef _ (hds (hf.symbols hpe).2)) hq2
  rw [← hq1] at hk
  have hwf := (Ev.solve_exact hc hpm hq2).1
  have hpwf := SSet.pieces_wf hwf p hp
  refine ⟨(Ev.valid_basic hl1).2 (by rw [hl2]; exact hpwf), q.1, hl1, ?_⟩
  rcases hk with ⟨h1, h2⟩ | ⟨h1, h2⟩
  · refine .inl ⟨h1, ?_⟩
    cases l with
    | nom t v =>
      cases v with
      | none => simp [Ev.values] at hl2
      | some n' =>
        simp [Ev.values] at hl2; subst hl2
        obtain ⟨z, hz⟩ := nom_has_str hpwf
        exact absurd (SSet.mem_den_pieces hp hz) (h2 z)
    | _ => rfl
  · refine .inr ⟨h1, ?_⟩
    have hno : ∀ z, Val.num z ∉ l.values.den := by
      intro z hz
      rw [hl2] at hz
      exact h2 z (SSet.mem_den_pieces hp hz)
    cases l with
    | or => simp [Ev.basic?] at hl1
    | and => simp [Ev.basic?] at hl1
    | nom t v =>
      simp [Ev.basic?] at hl1; subst hl1
      cases v with
      | none => simp [Ev.values] at hl2
      | some n' => exact ⟨n', rfl⟩
    | ivl t i =>
      simp [Ev.values] at hl2; subst hl2
      obtain ⟨z, hz⟩ := (Ivl.WF.infinite hpwf).nonempty
      exact absurd (by simpa [Ev.values] using hz) (hno z)
    | fin t v =>
      cases v with
      | none => simp [Ev.values] at hl2
      | some w =>
        simp [Ev.values] at hl2; subst hl2
        obtain ⟨z, hz⟩ := (show w.Nonempty from hpwf)
        exact absurd (by simpa [Ev.values] using hz) (hno z)

end Sppl
