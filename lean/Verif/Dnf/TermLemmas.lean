import Verif.Dnf.NumLemmas
import Verif.Sets.EndsLemmas
import Mathlib.Data.Set.Card
import Mathlib.Data.Set.Finite.Lemmas

set_option linter.all false

/-!
# The recursion of `dnf_to_disjoint_union` is well-founded (helper lemmas)
-/

namespace Sppl
open Classical

/-! ## Basic events about a variable with end points in fixed finite sets -/

/-- The basic event is about a variable of `V`; its end points are in `A` and its strings in `B`. -/
def EndLit (V : Finset String) (A : Finset EReal) (B : Finset String) (l : Ev) : Prop :=
  l.Valid ∧ ∃ k ∈ V, l.basic? = some (.id k) ∧ l.values.Ends A B

theorem Ev.values_not_un (l : Ev) : ∀ u, l.values ≠ .un u := by
  intro u h
  cases l with
  | fin t v => cases v <;> simp [Ev.values] at h
  | nom t v => cases v <;> simp [Ev.values] at h
  | _ => simp [Ev.values] at h

theorem SSet.and_ends {σ : Orders EReal} {A : Finset EReal} {B : Finset String} {s t r : SSet EReal} (hs : s.Ends A B) (ht : t.Ends A B)
    (hs' : ∀ u, s ≠ .un u) (ht' : ∀ u, t ≠ .un u) (h : SSet.and σ s t = .ok r) : r.Ends A B ∧ ∀ u, r ≠ .un u := by
  cases s with
  | un u => exact absurd rfl (hs' u)
  | empty => simp [SSet.and] at h; subst h; exact ⟨trivial, by simp⟩
  | pc p =>
    cases t with
    | un u => exact absurd rfl (ht' u)
    | empty => simp [SSet.and] at h; subst h; exact ⟨trivial, by simp⟩
    | pc q => exact Piece.and_ends hs ht (by simpa [SSet.and] using h)

theorem SSet.or_ends {σ : Orders EReal} {A : Finset EReal} {B : Finset String} {s t r : SSet EReal} (hs : s.Ends A B) (ht : t.Ends A B)
    (hs' : ∀ u, s ≠ .un u) (ht' : ∀ u, t ≠ .un u) (h : SSet.or σ s t = .ok r) : r.Ends A B := by
  cases s with
  | un u => exact absurd rfl (hs' u)
  | empty => simp [SSet.or] at h; subst h; exact ht
  | pc p =>
    cases t with
    | un u => exact absurd rfl (ht' u)
    | empty => simp [SSet.or] at h; subst h; exact hs
    | pc q => exact Piece.or_ends hs ht (by simpa [SSet.or] using h)

variable {V : Finset String} {A : Finset EReal} {B : Finset String}

theorem endLit_and {c : Ctx} : ∀ e f g : Ev, EndLit V A B e → EndLit V A B f → Ev.simplify (SSet.and c.σ) e f = .ok (some g) → EndLit V A B g := by
  rintro e f g ⟨he, k, hk, h1, h2⟩ ⟨hf, k', hk', h3, h4⟩ h
  obtain ⟨t, r, a1, a2, a3, a4, a5⟩ := Ev.simplify_some h
  have := SSet.and_spec c.σ _ _ ((Ev.valid_basic a1).1 he) (Ev.values_disj a1) ((Ev.valid_basic a2).1 hf) (Ev.values_disj a2) a3
  rw [h1] at a1; cases a1
  exact ⟨(Ev.valid_basic a4).2 (a5 ▸ this.wf), k, hk, a4, a5 ▸ (SSet.and_ends h2 h4 (Ev.values_not_un _) (Ev.values_not_un _) a3).1⟩

theorem endLit_or {c : Ctx} : ∀ e f g : Ev, EndLit V A B e → EndLit V A B f → Ev.simplify (SSet.or c.σ) e f = .ok (some g) → EndLit V A B g := by
  rintro e f g ⟨he, k, hk, h1, h2⟩ ⟨hf, k', hk', h3, h4⟩ h
  obtain ⟨t, r, a1, a2, a3, a4, a5⟩ := Ev.simplify_some h
  have := SSet.or_spec c.σ _ _ ((Ev.valid_basic a1).1 he) (Ev.values_disj a1) ((Ev.valid_basic a2).1 hf) (Ev.values_disj a2) a3
  rw [h1] at a1; cases a1
  exact ⟨(Ev.valid_basic a4).2 (a5 ▸ this.wf), k, hk, a4, a5 ▸ SSet.or_ends h2 h4 (Ev.values_not_un _) (Ev.values_not_un _) a3⟩

theorem ivlArgs_all {P : Ev → Prop} {t : Tr} {u : Un EReal} (hu : u.WF) {l : List Ev} (h : ivlArgs t u.args = .ok l)
    (hp : ∀ i, Piece.ivl i ∈ u.values → P (.ivl t i)) : (Ev.or l).All P := by
  obtain ⟨is, h1, rfl⟩ := ivlArgs_spec h
  refine Ev.all_or.2 (fun x hx => ?_)
  obtain ⟨i, hi, rfl⟩ := List.mem_map.1 hx
  refine .lit rfl (hp i ((hu.mem_args _).1 ?_))
  rw [h1]; exact List.mem_map_of_mem hi

/-- Negating a basic event gives the same end points. -/
theorem endLit_not {c : Ctx} (hb : ⊥ ∈ A) (ht : ⊤ ∈ A) {e g : Ev} (he : EndLit V A B e) (h : e.not c = .ok g) : g.All (EndLit V A B) := by
  obtain ⟨hv, k, hk, h1, h2⟩ := he
  have hg := (Ev.valid_all (Ev.not_spec e hv h).1).and' (Ev.not_lit h1 hv h)
  suffices hs : g.All (fun l => l.values.Ends A B) from (hg.and' hs).mono (fun l t _ h => ⟨h.1.1, k, hk, h.1.2.1, h.2⟩)
  have hwf := (Ev.valid_basic h1).1 hv
  cases e with
  | or => simp [Ev.basic?] at h1
  | and => simp [Ev.basic?] at h1
  | ivl t i =>
    simp only [Ev.not, bind, Except.bind] at h
    split at h; · cases h
    rename_i r hr
    have hr' : i.invert c.σ = .ok r := by simpa [SSet.invert, Piece.invert] using hr
    have hE := Ivl.invert_ends (B := B) (show i.a ∈ A ∧ i.b ∈ A from h2) hb ht hr'
    unfold notIvl at h
    split at h
    · cases h; exact .lit rfl trivial
    · cases h; exact .lit rfl hE
    · split at h
      · rename_i u _
        cases hl : ivlArgs t u.args with
        | error e => simp [hl, Except.map] at h
        | ok l =>
          simp [hl, Except.map] at h; subst h
          obtain ⟨r', e1, e2, -⟩ := Ivl.invert_spec c.σ i hwf
          rw [hr'] at e1; cases e1
          exact ivlArgs_all e2 hl (fun i hi => hE _ hi)
      · cases h
    · cases h
  | fin t v =>
    simp only [Ev.not, bind, Except.bind] at h
    split at h; · cases h
    rename_i r hr
    have hE : r.Ends A B ∧ r.WF := by
      cases v with
      | none =>
        simp only [optFin, SSet.invert, bind, Except.bind] at hr
        split at hr; · cases hr
        rename_i i hi
        cases hr
        obtain ⟨e1, e2⟩ := mkIvl_ab hi
        refine ⟨by simp only [SSet.Ends, Piece.Ends, e1, e2]; exact ⟨hb, ht⟩, ?_⟩
        simp [mkIvl] at hi; subst hi; simp [SSet.WF, Piece.WF, Ivl.WF]
      | some s =>
        have hr' : finInvert c.σ s = .ok r := by simpa [optFin, SSet.invert, Piece.invert] using hr
        exact ⟨(finInvert_ends (show s ⊆ A from h2) hb ht hr').1, (finInvert_spec c.σ s hr').1.wf⟩
    unfold notFin at h
    split at h
    · split at h
      · cases h; exact .lit rfl hE.1
      · cases h
    · rename_i u
      cases hl : ivlArgs t u.args with
      | error e => simp [hl, Except.map] at h
      | ok l =>
        simp [hl, Except.map] at h; subst h
        exact ivlArgs_all hE.2 hl (fun i hi => hE.1 _ hi)
    · cases h
  | nom t v =>
    simp only [Ev.not, bind, Except.bind] at h
    split at h; · cases h
    rename_i r hr
    unfold notNom at h
    split at h
    · cases h; exact .lit rfl trivial
    · rename_i m
      cases h
      refine .lit rfl ?_
      cases v with
      | none =>
        simp only [optNom, SSet.invert, bind, Except.bind] at hr
        split at hr <;> cases hr
      | some n =>
        exact Nom.invert_ends (r := .pc (.nom m)) (show n.vals ⊆ B from h2) (by simpa [optNom, SSet.invert, Piece.invert] using hr)
    · cases h

theorem not_endLit {c : Ctx} (hb : ⊥ ∈ A) (ht : ⊤ ∈ A) {e g : Ev} (he : e.All (EndLit V A B)) (h : e.not c = .ok g) : g.All (EndLit V A B) :=
  Ev.not_all endLit_and endLit_or (fun e g t _ he h => endLit_not hb ht he h) e he h

theorem cascade_endLit {c : Ctx} (hb : ⊥ ∈ A) (ht : ⊤ ∈ A) {es : List Ev} (hes : ∀ e ∈ es, e.All (EndLit V A B)) :
    ∀ (js : List ℕ) {e g : Ev}, e.All (EndLit V A B) → cascade c es e js = .ok g → g.All (EndLit V A B) := by
  intro js
  induction js with
  | nil => intro e g he h; simp [cascade, pure, Except.pure] at h; subst h; exact he
  | cons j js ih =>
    intro e g he h
    simp only [cascade, List.foldlM_cons, bind, Except.bind] at h
    split at h; · cases h
    rename_i st hst
    split at hst; · cases hst
    rename_i f hf
    split at hst; · cases hst
    rename_i nf hnf
    refine ih ?_ (by simpa [cascade, bind, Except.bind] using h)
    exact Ev.land_all endLit_and he (not_endLit hb ht (hes f (List.mem_of_getElem? hf)) hnf) hst

/-- The cascade negates each of the overlapping clauses. -/
theorem cascade_not {c : Ctx} {es : List Ev} : ∀ (js : List ℕ) {e g : Ev}, cascade c es e js = .ok g → ∀ j ∈ js, ∃ f nf, es[j]? = some f ∧ f.not c = .ok nf := by
  intro js
  induction js with
  | nil => simp
  | cons j js ih =>
    intro e g h
    simp only [cascade, List.foldlM_cons, bind, Except.bind] at h
    split at h; · cases h
    rename_i st hst
    split at hst; · cases hst
    rename_i f hf
    split at hst; · cases hst
    rename_i nf hnf
    intro j' hj'
    rcases List.mem_cons.1 hj' with rfl | hj'
    · exact ⟨f, nf, hf, hnf⟩
    · exact ih (e := st) (g := g) (by simpa [cascade, bind, Except.bind] using h) j' hj'

/-! ## Factoring basic events about variables -/

theorem piece_and_not_un {p q : Piece EReal} {r : SSet EReal} (hr : Piece.and p q = .ok r) : ∀ u, r ≠ .un u := by
  cases p <;> cases q <;> simp only [Piece.and] at hr
  · exact Nom.and_not_un hr
  · cases hr; simp
  · cases hr; simp
  · cases hr; simp
  · cases hr; exact finOrEmpty_not_un _
  · cases hr; exact finOrEmpty_not_un _
  · cases hr; simp
  · cases hr; exact finOrEmpty_not_un _
  · exact (Ivl.and_ends (A := {_, _, _, _}) (B := ∅) (by simp; exact ⟨.inl rfl, .inr (.inl rfl)⟩) (by simp; exact ⟨.inr (.inr (.inl rfl)), .inr (.inr (.inr rfl))⟩) hr).2

theorem land_same {c : Ctx} {k : String} {e f g : Ev} (he : e.basic? = some (.id k)) (hf : f.basic? = some (.id k)) (h : e.land c f = .ok g) :
    g.basic? = some (.id k) := by
  unfold Ev.land at h
  simp only [bind, Except.bind] at h
  split at h; · cases h
  rename_i o ho
  have ho' := ho
  unfold Ev.simplify at ho
  simp only [he, hf, if_true, bind, Except.bind] at ho
  split at ho; · cases ho
  rename_i r hr
  cases ho
  have hnu : ∀ u, r ≠ .un u := by
    have h1 := Ev.values_not_un e
    have h2 := Ev.values_not_un f
    revert h1 h2 hr
    generalize e.values = s
    generalize f.values = t
    intro hr h1 h2
    cases s with
    | un u => exact absurd rfl (h1 u)
    | empty => simp [SSet.and] at hr; subst hr; simp
    | pc p =>
      cases t with
      | un u => exact absurd rfl (h2 u)
      | empty => simp [SSet.and] at hr; subst hr; simp
      | pc q =>
        exact piece_and_not_un (by simpa [SSet.and] using hr)
  cases r with
  | un u => exact absurd rfl (hnu u)
  | empty => simp [Ev.ofSet] at h; subst h; rfl
  | pc p =>
    cases p <;> (simp [Ev.ofSet] at h; subst h; rfl)

/-- Each factor of a clause of basic events about variables is a basic event. -/
def LitFac (m : Clause String) : Prop := ∀ p ∈ m, p.2.basic? = some (.id p.1)

theorem addAnd_lit {c : Ctx} {k : String} {ev : Ev} {m m' : Clause String} (hm : LitFac m) (he : ev.basic? = some (.id k))
    (h : Clause.addAnd c k ev m = .ok m') : LitFac m' := by
  rcases Clause.addAnd_ok h with ⟨h1, rfl⟩ | ⟨a, e', b, g, rfl, hg, rfl⟩
  · intro p hp
    rcases List.mem_append.1 hp with hp | hp
    · exact hm p hp
    · simp at hp; subst hp; exact he
  · intro p hp
    simp only [List.mem_append, List.mem_cons] at hp
    rcases hp with hp | rfl | hp
    · exact hm p (by simp [hp])
    · exact land_same (hm (k, e') (by simp)) he hg
    · exact hm p (by simp [hp])

theorem factorLit_var {d e : Ev} {p : String × Ev} (he : VarLit e) (h : factorLit (selfLookup d) e = .ok p) : p.2.basic? = some (.id p.1) := by
  obtain ⟨h1, s, h2, h3⟩ := factorLit_ok h
  obtain ⟨k, hk⟩ := he
  rw [h1, hk]
  rw [symbols_of_basic hk] at h2
  have : k = s := by simpa [Tr.symbols] using h2
  rw [this, (selfLookup_ok h3).1]

theorem factorLoop_lit {c : Ctx} {d : Ev} : ∀ (rest : List Ev) {m m' : Clause String}, LitFac m → (∀ e ∈ rest, VarLit e) →
    factorLoop c (selfLookup d) m rest = .ok m' → LitFac m' := by
  intro rest
  induction rest with
  | nil => intro m m' hm _ h; simp [factorLoop, pure, Except.pure] at h; subst h; exact hm
  | cons e rest ih =>
    intro m m' hm hr h
    simp only [factorLoop, List.foldlM_cons, bind, Except.bind] at h
    split at h; · cases h
    rename_i m1 hm1
    split at hm1; · cases hm1
    rename_i p hp
    have h1 := factorLit_var (hr e (by simp)) hp
    exact ih (addAnd_lit hm h1 hm1) (fun e he => hr e (by simp [he])) (by simpa [factorLoop, bind, Except.bind] using h)

theorem factorClause_lit {c : Ctx} {d e : Ev} (hv : e.Valid) (ha : e.All VarLit) {m : Clause String} (h : factorClause c (selfLookup d) e = .ok m) : LitFac m := by
  have lit : ∀ {e : Ev}, e.All VarLit → e.IsLit → (do
      let ke ← factorLit (selfLookup d) e
      .ok [ke]) = Except.ok m → LitFac m := by
    intro e ha hl h
    simp only [bind, Except.bind] at h
    split at h; · cases h
    rename_i p hp
    cases h
    obtain ⟨t, ht⟩ := Ev.isLit_iff.1 hl
    have := factorLit_var ((Ev.all_lit ht).1 ha) hp
    intro q hq
    simp at hq; subst hq; exact this
  cases e with
  | and es =>
    simp only [factorClause] at h
    split at h
    · rename_i hl
      simp only [List.all_eq_true] at hl
      refine factorLoop_lit es (m := []) (by intro p hp; simp at hp) (fun e he => ?_) h
      obtain ⟨t, ht⟩ := Option.isSome_iff_exists.1 (hl e he)
      exact (Ev.all_lit ht).1 (Ev.all_and.1 ha e he)
    · cases h
  | or es => simp [factorClause] at h
  | ivl t i => exact lit ha trivial h
  | fin t i => exact lit ha trivial h
  | nom t i => exact lit ha trivial h

/-- Solving a basic event about a variable. -/
theorem solve_var {c : Ctx} {n : ℕ} {e : Ev} {k : String} (h : e.basic? = some (.id k)) : e.solve c n = .ok e.values := by
  cases e with
  | ivl t i => simp [Ev.basic?] at h; subst h; rfl
  | fin t v => simp [Ev.basic?] at h; subst h; cases v <;> rfl
  | nom t v => simp [Ev.basic?] at h; subst h; cases v <;> rfl
  | or => simp [Ev.basic?] at h
  | and => simp [Ev.basic?] at h

theorem solveClause_var {c : Ctx} {n : ℕ} {m : Clause String} (hm : LitFac m) {sol : Sol} (h : solveClause c n m = .ok sol) :
    List.Forall₂ (fun p q => q = (p.1, p.2.values)) m sol := by
  have := solveClause_ok h
  have key : ∀ {m : Clause String} {sol : Sol}, LitFac m → List.Forall₂ (fun p q => q.1 = p.1 ∧ p.2.solve c n = .ok q.2) m sol → List.Forall₂ (fun p q => q = (p.1, p.2.values)) m sol := by
    intro m sol hm h
    induction h with
    | nil => exact .nil
    | @cons p q m sol h1 h2 ih =>
      refine .cons ?_ (ih (fun p hp => hm p (by simp [hp])))
      obtain ⟨a, b⟩ := q
      rw [solve_var (hm p (by simp))] at h1
      simp only [Except.ok.injEq] at h1
      rw [h1.1, h1.2]
  exact key hm this

end Sppl
