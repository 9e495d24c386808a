import Verif.Dnf.Model
import Verif.Dnf.Spec
import Verif.Events.MadeLemmas
import Verif.Events.Props

set_option linter.all false

/-!
# Helper lemmas for normal forms
-/

namespace Sppl
open Classical

theorem Ev.isLit_iff {e : Ev} : e.IsLit ↔ ∃ t, e.basic? = some t := by
  cases e <;> simp [Ev.IsLit, Ev.basic?]
theorem Ev.IsLit.clause {e : Ev} (h : e.IsLit) : e.IsClause := by
  cases e <;> simp [Ev.IsLit] at h <;> trivial
theorem Ev.IsClause.dnf {e : Ev} (h : e.IsClause) : e.IsDnf := by
  cases e <;> first | exact h | simp [Ev.IsClause] at h

/-! ## `to_dnf` -/

theorem mem_cross {α : Type} {ls : List (List α)} {xs : List α} :
    xs ∈ cross ls ↔ List.Forall₂ (fun x l => x ∈ l) xs ls := by
  induction ls generalizing xs with
  | nil => simp [cross]
  | cons l ls ih =>
    simp only [cross, List.mem_flatMap, List.mem_map]
    constructor
    · rintro ⟨x, hx, ys, hys, rfl⟩; exact .cons hx (ih.1 hys)
    · rintro (_ | ⟨h1, h2⟩); exact ⟨_, h1, _, ih.2 h2, rfl⟩

theorem Ev.toDnfListL_eq (es : List Ev) : Ev.toDnfListL es = es.map Ev.toDnfList := by
  induction es with
  | nil => simp [Ev.toDnfListL]
  | cons e es ih => simp [Ev.toDnfListL, ih]

theorem Ev.toDnfList_lit {e : Ev} {t : Tr} (h : e.basic? = some t) : e.toDnfList = [[e]] := by
  cases e <;> simp [Ev.basic?] at h <;> simp [Ev.toDnfList]

/-- Choosing one element in each list. -/
theorem exists_choice {α β : Type} {R : α → β → Prop} {l : List α} (h : ∀ a ∈ l, ∃ b, R a b) :
    ∃ bs, List.Forall₂ R l bs := by
  induction l with
  | nil => exact ⟨[], .nil⟩
  | cons a l ih =>
    obtain ⟨b, hb⟩ := h a (by simp)
    obtain ⟨bs, hbs⟩ := ih (fun a ha => h a (by simp [ha]))
    exact ⟨b :: bs, .cons hb hbs⟩

theorem Ev.toDnfList_spec {P : Ev → Prop} : ∀ e : Ev, e.Valid →
    e.toDnfList ≠ [] ∧ (∀ cl ∈ e.toDnfList, cl ≠ [] ∧ ∀ l ∈ cl, l.IsLit ∧ l.Valid ∧ (e.All P → P l)) ∧
    ∀ ω, e.holds ω ↔ ∃ cl ∈ e.toDnfList, ∀ l ∈ cl, l.holds ω := by
  refine Ev.ind ?_ ?_ ?_
  · intro e t ht hv
    rw [Ev.toDnfList_lit ht]
    refine ⟨by simp, ?_, by simp⟩
    simp only [List.mem_singleton, forall_eq]
    exact ⟨by simp, Ev.isLit_iff.2 ⟨t, ht⟩, hv, (Ev.all_lit ht).1⟩
  · intro es ih hv
    cases hv with
    | or hne hes =>
      rw [Ev.toDnfList, Ev.toDnfListL_eq]
      refine ⟨?_, ?_, ?_⟩
      · obtain ⟨e, he⟩ := List.exists_mem_of_ne_nil _ hne
        obtain ⟨cl, hcl⟩ := List.exists_mem_of_ne_nil _ (ih e he (hes e he)).1
        exact List.ne_nil_of_mem (List.mem_flatten.2 ⟨_, List.mem_map_of_mem he, hcl⟩)
      · intro cl hcl
        obtain ⟨L, hL, hcl⟩ := List.mem_flatten.1 hcl
        obtain ⟨e, he, rfl⟩ := List.mem_map.1 hL
        obtain ⟨h1, h2⟩ := (ih e he (hes e he)).2.1 cl hcl
        exact ⟨h1, fun l hl => ⟨(h2 l hl).1, (h2 l hl).2.1, fun ha => (h2 l hl).2.2 (Ev.all_or.1 ha e he)⟩⟩
      · intro ω
        rw [Ev.holds_or]
        constructor
        · rintro ⟨e, he, hh⟩
          obtain ⟨cl, hcl, h⟩ := ((ih e he (hes e he)).2.2 ω).1 hh
          exact ⟨cl, List.mem_flatten.2 ⟨_, List.mem_map_of_mem he, hcl⟩, h⟩
        · rintro ⟨cl, hcl, h⟩
          obtain ⟨L, hL, hcl⟩ := List.mem_flatten.1 hcl
          obtain ⟨e, he, rfl⟩ := List.mem_map.1 hL
          exact ⟨e, he, ((ih e he (hes e he)).2.2 ω).2 ⟨cl, hcl, h⟩⟩
  · intro es ih hv
    cases hv with
    | and hne hes =>
      rw [Ev.toDnfList, Ev.toDnfListL_eq]
      have hx : ∀ xs, xs ∈ cross (es.map Ev.toDnfList) ↔ List.Forall₂ (fun x e => x ∈ e.toDnfList) xs es := by
        intro xs
        rw [mem_cross, List.forall₂_map_right_iff]
      refine ⟨?_, ?_, ?_⟩
      · obtain ⟨xs, hxs⟩ := exists_choice (R := fun (e : Ev) cl => cl ∈ e.toDnfList) (l := es)
          (fun e he => List.exists_mem_of_ne_nil _ (ih e he (hes e he)).1)
        exact List.ne_nil_of_mem (List.mem_map_of_mem ((hx xs).2 hxs.flip))
      · intro cl hcl
        obtain ⟨xs, hxs, rfl⟩ := List.mem_map.1 hcl
        have hF := (hx xs).1 hxs
        refine ⟨?_, fun l hl => ?_⟩
        · obtain ⟨e, he⟩ := List.exists_mem_of_ne_nil _ hne
          obtain ⟨x, hx1, hx2⟩ := forall₂_mem_right hF he
          obtain ⟨l, hl⟩ := List.exists_mem_of_ne_nil _ ((ih e he (hes e he)).2.1 x hx2).1
          exact List.ne_nil_of_mem (List.mem_flatten.2 ⟨x, hx1, hl⟩)
        · obtain ⟨x, hx1, hlx⟩ := List.mem_flatten.1 hl
          obtain ⟨e, he, hx2⟩ := forall₂_mem_left hF hx1
          obtain ⟨-, h2⟩ := (ih e he (hes e he)).2.1 x hx2
          exact ⟨(h2 l hlx).1, (h2 l hlx).2.1, fun ha => (h2 l hlx).2.2 (Ev.all_and.1 ha e he)⟩
      · intro ω
        rw [Ev.holds_and]
        constructor
        · intro h
          obtain ⟨xs, hxs⟩ := exists_choice (R := fun (e : Ev) cl => cl ∈ e.toDnfList ∧ ∀ l ∈ cl, l.holds ω) (l := es)
            (fun e he => ((ih e he (hes e he)).2.2 ω).1 (h e he))
          refine ⟨xs.flatten, List.mem_map_of_mem ((hx xs).2 ?_), fun l hl => ?_⟩
          · exact (hxs.imp (fun _ _ h => h.1)).flip
          · obtain ⟨x, hx1, hlx⟩ := List.mem_flatten.1 hl
            obtain ⟨e, he, hR⟩ := forall₂_mem_right hxs hx1
            exact hR.2 l hlx
        · rintro ⟨cl, hcl, h⟩ e he
          obtain ⟨xs, hxs, rfl⟩ := List.mem_map.1 hcl
          obtain ⟨x, hx1, hx2⟩ := forall₂_mem_right ((hx xs).1 hxs) he
          exact ((ih e he (hes e he)).2.2 ω).2 ⟨x, hx2, fun l hl => h l (List.mem_flatten.2 ⟨x, hx1, hl⟩)⟩

theorem simplifyEvent_and {cl : List Ev} (h : cl ≠ []) (hl : ∀ l ∈ cl, l.IsLit ∧ l.Valid) :
    ∃ g, simplifyEvent .and cl = .ok g ∧ g.IsClause ∧ g.Valid ∧ (∀ ω, g.holds ω ↔ ∀ l ∈ cl, l.holds ω) ∧
      ∀ P : Ev → Prop, (∀ l ∈ cl, P l) → g.All P := by
  match cl, h, hl with
  | [e], _, hl =>
    obtain ⟨h1, h2⟩ := hl e (by simp)
    refine ⟨e, rfl, h1.clause, h2, by simp, fun P hP => ?_⟩
    obtain ⟨t, ht⟩ := Ev.isLit_iff.1 h1
    exact .lit ht (hP e (by simp))
  | a :: b :: l, _, hl =>
    refine ⟨.and (a :: b :: l), rfl, ⟨by simp, fun e he => (hl e he).1⟩, .and (by simp) (fun e he => (hl e he).2),
      fun ω => Ev.holds_and _ _, fun P hP => Ev.all_and.2 (fun e he => ?_)⟩
    obtain ⟨t, ht⟩ := Ev.isLit_iff.1 (hl e he).1
    exact .lit ht (hP e he)

theorem simplifyEvent_or {cl : List Ev} (h : cl ≠ []) (hl : ∀ l ∈ cl, l.IsClause ∧ l.Valid) :
    ∃ g, simplifyEvent .or cl = .ok g ∧ g.IsDnf ∧ g.Valid ∧ (∀ ω, g.holds ω ↔ ∃ l ∈ cl, l.holds ω) ∧
      ∀ P : Ev → Prop, (∀ l ∈ cl, l.All P) → g.All P := by
  match cl, h, hl with
  | [e], _, hl =>
    obtain ⟨h1, h2⟩ := hl e (by simp)
    exact ⟨e, rfl, h1.dnf, h2, by simp, fun P hP => hP e (by simp)⟩
  | a :: b :: l, _, hl =>
    exact ⟨.or (a :: b :: l), rfl, ⟨by simp, fun e he => (hl e he).1⟩, .or (by simp) (fun e he => (hl e he).2),
      fun ω => Ev.holds_or _ _, fun P hP => Ev.all_or.2 hP⟩

/-- `to_dnf` is total and exact. -/
theorem Ev.toDnf_spec {e : Ev} (hv : e.Valid) : ∃ r, e.toDnf = .ok r ∧ r.IsDnf ∧ r.Valid ∧
    (∀ ω, r.holds ω ↔ e.holds ω) ∧ ∀ P : Ev → Prop, e.All P → r.All P := by
  obtain ⟨h1, h2, h3⟩ := Ev.toDnfList_spec (P := fun _ => True) e hv
  obtain ⟨gs, hgs⟩ := exists_choice (R := fun cl g => simplifyEvent .and cl = .ok g ∧ g.IsClause ∧ g.Valid ∧
      (∀ ω, g.holds ω ↔ ∀ l ∈ cl, l.holds ω) ∧ ∀ P : Ev → Prop, (∀ l ∈ cl, P l) → g.All P) (l := e.toDnfList)
    (fun cl hcl => simplifyEvent_and (h2 cl hcl).1 (fun l hl => ⟨((h2 cl hcl).2 l hl).1, ((h2 cl hcl).2 l hl).2.1⟩))
  have hm : e.toDnfList.mapM (simplifyEvent .and) = .ok gs := mapM_of_forall₂ (hgs.imp (fun _ _ h => h.1))
  have hne : gs ≠ [] := by
    intro e'; subst e'
    obtain ⟨cl, hcl⟩ := List.exists_mem_of_ne_nil _ h1
    obtain ⟨g, hg, -⟩ := forall₂_mem_left hgs hcl
    simp at hg
  obtain ⟨r, hr, hd, hvr, hh, hP⟩ := simplifyEvent_or hne (fun g hg => by
    obtain ⟨cl, hcl, -, h5, h6, -⟩ := forall₂_mem_right hgs hg
    exact ⟨h5, h6⟩)
  refine ⟨r, by simp [Ev.toDnf, hm, hr, bind, Except.bind], hd, hvr, fun ω => ?_, fun P hPe => hP P (fun g hg => ?_)⟩
  · rw [hh, h3]
    constructor
    · rintro ⟨g, hg, hgh⟩
      obtain ⟨cl, hcl, -, -, -, h7, -⟩ := forall₂_mem_right hgs hg
      exact ⟨cl, hcl, (h7 ω).1 hgh⟩
    · rintro ⟨cl, hcl, h⟩
      obtain ⟨g, hg, -, -, -, h7, -⟩ := forall₂_mem_left hgs hcl
      exact ⟨g, hg, (h7 ω).2 h⟩
  · obtain ⟨cl, hcl, -, -, -, -, h8⟩ := forall₂_mem_right hgs hg
    exact h8 P (fun l hl => (((Ev.toDnfList_spec (P := P) e hv).2.1 cl hcl).2 l hl).2.2 hPe)

/-! ## `dnf_factor` -/

variable {K : Type} [DecidableEq K]

theorem Clause.addAnd_ok {c : Ctx} {k : K} {ev : Ev} {m m' : Clause K} (h : Clause.addAnd c k ev m = .ok m') :
    (k ∉ m.map Prod.fst ∧ m' = m ++ [(k, ev)]) ∨
    ∃ a e b g, m = a ++ (k, e) :: b ∧ e.land c ev = .ok g ∧ m' = a ++ (k, g) :: b := by
  induction m generalizing m' with
  | nil => simp [Clause.addAnd] at h; subst h; simp
  | cons p m ih =>
    obtain ⟨k', e⟩ := p
    simp only [Clause.addAnd] at h
    split at h
    · rename_i hk; subst hk
      simp only [bind, Except.bind] at h
      split at h; · cases h
      rename_i g hg
      cases h
      exact .inr ⟨[], e, m, g, rfl, hg, rfl⟩
    · rename_i hk
      simp only [bind, Except.bind] at h
      split at h; · cases h
      rename_i r hr
      cases h
      rcases ih hr with ⟨h1, rfl⟩ | ⟨a, e', b, g, rfl, hg, rfl⟩
      · left
        refine ⟨?_, by simp⟩
        simp only [List.map_cons, List.mem_cons, not_or]
        exact ⟨fun h => hk h.symm, h1⟩
      · exact .inr ⟨(k', e) :: a, e', b, g, by simp, hg, by simp⟩

theorem Ev.symbol1_ok {e : Ev} {s : String} (h : e.symbol1 = .ok s) : e.symbols = {s} := by
  unfold Ev.symbol1 at h
  split at h
  · rename_i s' hs
    cases h
    ext x
    rw [← Finset.mem_toList, hs]; simp
  · cases h

theorem factorLit_ok {lookup : String → Option K} {e : Ev} {p : K × Ev} (h : factorLit lookup e = .ok p) :
    p.2 = e ∧ ∃ s, e.symbols = {s} ∧ lookup s = some p.1 := by
  unfold factorLit at h
  simp only [bind, Except.bind] at h
  split at h; · cases h
  rename_i s hs
  split at h
  · cases h; exact ⟨rfl, s, Ev.symbol1_ok hs, by assumption⟩
  · cases h

/-- What a factored clause satisfies. -/
structure FacOK (lookup : String → Option K) (P : Ev → Prop) (es : List Ev) (m : Clause K) : Prop where
  nodup : (m.map Prod.fst).Nodup
  valid : ∀ p ∈ m, p.2.Valid
  allP : ∀ p ∈ m, p.2.All P
  lk : ∀ p ∈ m, p.2.All (fun l => ∃ s, l.symbols = {s} ∧ lookup s = some p.1)
  clause : ∀ p ∈ m, p.2.IsClause
  holds : ∀ ω, (∀ p ∈ m, p.2.holds ω) ↔ ∀ e ∈ es, e.holds ω

theorem IsClause.conjuncts {e : Ev} (h : e.IsClause) : e.conjuncts ≠ [] ∧ ∀ x ∈ e.conjuncts, x.IsLit := by
  cases e with
  | and es => exact h
  | or => exact False.elim h
  | _ => simp [Ev.conjuncts, Ev.IsLit]

theorem Ev.land_clause {c : Ctx} {e f g : Ev} (he : e.IsClause) (hf : f.IsClause) (h : e.land c f = .ok g) : g.IsClause := by
  unfold Ev.land at h
  simp only [bind, Except.bind] at h
  split at h; · cases h
  rename_i o ho
  cases o with
  | none =>
    cases h
    obtain ⟨h1, h2⟩ := IsClause.conjuncts he
    obtain ⟨h3, h4⟩ := IsClause.conjuncts hf
    refine ⟨by simp [h1], fun x hx => ?_⟩
    rcases List.mem_append.1 hx with h | h
    · exact h2 x h
    · exact h4 x h
  | some g' =>
    cases h
    obtain ⟨t, r, -, -, -, h4, -⟩ := Ev.simplify_some ho
    exact (Ev.isLit_iff.2 ⟨t, h4⟩).clause

theorem trOnly_lk (lookup : String → Option K) (k : K) : TrOnly (fun l => ∃ s, l.symbols = {s} ∧ lookup s = some k) := by
  rintro e f t h1 h2 ⟨s, h⟩
  exact ⟨s, by rw [symbols_of_basic h2]; rwa [symbols_of_basic h1] at h⟩

theorem FacOK.step {c : Ctx} {lookup : String → Option K} {P : Ev → Prop}
    (hP : ∀ e f g, P e → P f → Ev.simplify (SSet.and c.σ) e f = .ok (some g) → P g)
    {es : List Ev} {m m' : Clause K} (hm : FacOK lookup P es m) {e : Ev} (hl : e.IsLit) (hv : e.Valid) (hPe : P e) {k : K}
    (hk : ∃ s, e.symbols = {s} ∧ lookup s = some k) (h : Clause.addAnd c k e m = .ok m') :
    FacOK lookup P (es ++ [e]) m' := by
  obtain ⟨t, ht⟩ := Ev.isLit_iff.1 hl
  rcases Clause.addAnd_ok h with ⟨h1, rfl⟩ | ⟨a, e', b, g, rfl, hg, rfl⟩
  · refine ⟨?_, ?_, ?_, ?_, ?_, ?_⟩
    · rw [List.map_append, List.nodup_append]
      refine ⟨hm.nodup, by simp, ?_⟩
      rintro x hx y hy rfl
      simp at hy; subst hy; exact h1 hx
    · intro p hp
      rcases List.mem_append.1 hp with hp | hp
      · exact hm.valid p hp
      · simp at hp; subst hp; exact hv
    · intro p hp
      rcases List.mem_append.1 hp with hp | hp
      · exact hm.allP p hp
      · simp at hp; subst hp; exact .lit ht hPe
    · intro p hp
      rcases List.mem_append.1 hp with hp | hp
      · exact hm.lk p hp
      · simp at hp; subst hp; exact .lit ht hk
    · intro p hp
      rcases List.mem_append.1 hp with hp | hp
      · exact hm.clause p hp
      · simp at hp; subst hp; exact hl.clause
    · intro ω
      have := hm.holds ω
      constructor
      · intro h x hx
        rcases List.mem_append.1 hx with hx | hx
        · exact this.1 (fun p hp => h p (by simp [hp])) x hx
        · simp at hx; subst hx; exact h (k, x) (by simp)
      · intro h p hp
        rcases List.mem_append.1 hp with hp | hp
        · exact this.2 (fun e he => h e (by simp [he])) p hp
        · simp at hp; subst hp; exact h e (by simp)
  · have he' : (k, e') ∈ a ++ (k, e') :: b := by simp
    have hs := Ev.land_spec (hm.valid _ he') hv hg
    have hmem : ∀ p, p ∈ a ++ (k, g) :: b → p = (k, g) ∨ p ∈ a ++ (k, e') :: b := by
      intro p hp
      simp only [List.mem_append, List.mem_cons] at hp ⊢
      tauto
    refine ⟨?_, ?_, ?_, ?_, ?_, ?_⟩
    · have := hm.nodup; simpa using this
    · intro p hp
      rcases hmem p hp with rfl | hp
      · exact hs.1
      · exact hm.valid p hp
    · intro p hp
      rcases hmem p hp with rfl | hp
      · exact Ev.land_all hP (hm.allP _ he') (.lit ht hPe) hg
      · exact hm.allP p hp
    · intro p hp
      rcases hmem p hp with rfl | hp
      · exact Ev.land_all (trOnly_lk lookup k).and (hm.lk _ he') (.lit ht hk) hg
      · exact hm.lk p hp
    · intro p hp
      rcases hmem p hp with rfl | hp
      · exact Ev.land_clause (hm.clause _ he') hl.clause hg
      · exact hm.clause p hp
    · intro ω
      have h1 := hm.holds ω
      have h2 : (∀ p ∈ a ++ (k, g) :: b, p.2.holds ω) ↔ (∀ p ∈ a ++ (k, e') :: b, p.2.holds ω) ∧ e.holds ω := by
        have := hs.2 ω
        simp only [List.mem_append, List.mem_cons, or_imp, forall_and, forall_eq]
        rw [this]; tauto
      rw [h2, h1]
      simp only [List.mem_append, List.mem_singleton, or_imp, forall_and, forall_eq]

theorem factorLoop_ok {c : Ctx} {lookup : String → Option K} {P : Ev → Prop}
    (hP : ∀ e f g, P e → P f → Ev.simplify (SSet.and c.σ) e f = .ok (some g) → P g) :
    ∀ (rest : List Ev) {es : List Ev} {m m' : Clause K}, FacOK lookup P es m →
    (∀ e ∈ rest, e.IsLit ∧ e.Valid ∧ P e) → factorLoop c lookup m rest = .ok m' → FacOK lookup P (es ++ rest) m' := by
  intro rest
  induction rest with
  | nil => intro es m m' hm _ h; simp [factorLoop, pure, Except.pure] at h; subst h; simpa using hm
  | cons e rest ih =>
    intro es m m' hm hr h
    simp only [factorLoop, List.foldlM_cons, bind, Except.bind] at h
    split at h; · cases h
    rename_i m1 hm1
    split at hm1; · cases hm1
    rename_i p hp
    obtain ⟨h1, h2⟩ := factorLit_ok hp
    obtain ⟨h3, h4, h5⟩ := hr e (by simp)
    rw [h1] at hm1
    have := hm.step hP h3 h4 h5 h2 hm1
    simpa using ih this (fun e he => hr e (by simp [he])) (by simpa [factorLoop, bind, Except.bind] using h)

theorem FacOK.nil (lookup : String → Option K) (P : Ev → Prop) : FacOK lookup P [] ([] : Clause K) :=
  ⟨by simp, by simp, by simp, by simp, by simp, by simp⟩

theorem FacOK.nonempty {c : Ctx} {lookup : String → Option K} {m m' : Clause K} {es : List Ev}
    (h : factorLoop c lookup m es = .ok m') (hne : m ≠ [] ∨ es ≠ []) : m' ≠ [] := by
  induction es generalizing m with
  | nil => simp [factorLoop, pure, Except.pure] at h; subst h; simpa using hne
  | cons e es ih =>
    simp only [factorLoop, List.foldlM_cons, bind, Except.bind] at h
    split at h; · cases h
    rename_i m1 hm1
    split at hm1; · cases hm1
    refine ih (by simpa [factorLoop, bind, Except.bind] using h) (.inl ?_)
    rcases Clause.addAnd_ok hm1 with ⟨-, rfl⟩ | ⟨a, e', b, g, -, -, rfl⟩ <;> simp

theorem factorClause_ok {c : Ctx} {lookup : String → Option K} {P : Ev → Prop}
    (hP : ∀ e f g, P e → P f → Ev.simplify (SSet.and c.σ) e f = .ok (some g) → P g)
    {e : Ev} (hv : e.Valid) (ha : e.All P) {m : Clause K} (h : factorClause c lookup e = .ok m) :
    FacOK lookup P e.conjuncts m ∧ m ≠ [] ∧ e.IsClause := by
  have lit : ∀ {e : Ev}, e.Valid → e.All P → e.IsLit → (do
      let ke ← factorLit lookup e
      .ok [ke]) = Except.ok m → FacOK lookup P [e] m ∧ m ≠ [] := by
    intro e hv ha hl h
    simp only [bind, Except.bind] at h
    split at h; · cases h
    rename_i p hp
    cases h
    obtain ⟨h1, h2⟩ := factorLit_ok hp
    obtain ⟨t, ht⟩ := Ev.isLit_iff.1 hl
    refine ⟨?_, by simp⟩
    have := (FacOK.nil lookup P).step (c := c) hP hl hv ((Ev.all_lit ht).1 ha) h2 rfl
    obtain ⟨k, e'⟩ := p
    simp at h1; subst h1; exact this
  cases e with
  | and es =>
    simp only [factorClause] at h
    split at h
    · rename_i hl
      simp only [List.all_eq_true] at hl
      have hl' : ∀ e ∈ es, e.IsLit := fun e he => Ev.isLit_iff.2 (Option.isSome_iff_exists.1 (hl e he))
      cases hv with
      | and hne hes =>
        refine ⟨?_, FacOK.nonempty h (.inr hne), ⟨hne, hl'⟩⟩
        have := factorLoop_ok hP es (FacOK.nil lookup P) (fun e he => ⟨hl' e he, hes e he, ?_⟩) h
        · simpa [Ev.conjuncts] using this
        · obtain ⟨t, ht⟩ := Ev.isLit_iff.1 (hl' e he)
          exact (Ev.all_lit ht).1 (Ev.all_and.1 ha e he)
    · cases h
  | or es => simp [factorClause] at h
  | ivl t i => exact ⟨(lit hv ha trivial h).1, (lit hv ha trivial h).2, trivial⟩
  | fin t i => exact ⟨(lit hv ha trivial h).1, (lit hv ha trivial h).2, trivial⟩
  | nom t i => exact ⟨(lit hv ha trivial h).1, (lit hv ha trivial h).2, trivial⟩

theorem dnfFactor_ok {c : Ctx} {lookup : String → Option K} {P : Ev → Prop}
    (hP : ∀ e f g, P e → P f → Ev.simplify (SSet.and c.σ) e f = .ok (some g) → P g)
    {e : Ev} (hv : e.Valid) (ha : e.All P) {R : List (Clause K)} (h : dnfFactor c lookup e = .ok R) :
    e.IsDnf ∧ List.Forall₂ (fun cl m => FacOK lookup P cl.conjuncts m ∧ m ≠ [] ∧ cl.IsClause) e.disjuncts R := by
  have one : ∀ {e : Ev}, e.Valid → e.All P → (do
      let m ← factorClause c lookup e
      .ok [m]) = Except.ok R → e.IsClause ∧ List.Forall₂ (fun cl m => FacOK lookup P cl.conjuncts m ∧ m ≠ [] ∧ cl.IsClause) [e] R := by
    intro e hv ha h
    simp only [bind, Except.bind] at h
    split at h; · cases h
    rename_i m hm
    cases h
    have := factorClause_ok hP hv ha hm
    exact ⟨this.2.2, .cons this .nil⟩
  cases e with
  | or es =>
    simp only [dnfFactor] at h
    split at h
    · have hF := mapM_ok h
      cases hv with
      | or hne hes =>
        have : ∀ {l : List Ev} {R : List (Clause K)}, (∀ e ∈ l, e.Valid ∧ e.All P) → List.Forall₂ (fun a b => factorClause c lookup a = .ok b) l R →
            List.Forall₂ (fun cl m => FacOK lookup P cl.conjuncts m ∧ m ≠ [] ∧ cl.IsClause) l R := by
          intro l R hl hF
          induction hF with
          | nil => exact .nil
          | cons h1 _ ih =>
            exact .cons (factorClause_ok hP (hl _ (by simp)).1 (hl _ (by simp)).2 h1) (ih (fun e he => hl e (by simp [he])))
        have hF' := this (fun e he => ⟨hes e he, Ev.all_or.1 ha e he⟩) hF
        refine ⟨⟨hne, fun e he => ?_⟩, hF'⟩
        obtain ⟨m, hm, h3⟩ := forall₂_mem_left hF' he
        exact h3.2.2
    · cases h
  | and es => exact one hv ha h
  | ivl t i => exact ⟨trivial, (one hv ha h).2⟩
  | fin t i => exact ⟨trivial, (one hv ha h).2⟩
  | nom t i => exact ⟨trivial, (one hv ha h).2⟩

end Sppl
