import Verif.Events.InvertLemmas

set_option linter.all false

/-! Correctness of the Boolean operators on events. -/

namespace Sppl
open Classical
variable {r0 : Bool}

theorem Ev.Made.valid {c : Ctx} : ∀ e : Ev, e.MadeG r0 c → e.Valid := by
  have := (sizeInd (P := fun _ => True) (Q := fun e => e.MadeG r0 c → e.Valid) (fun _ _ _ => trivial) ?_).2
  · exact this
  · intro e _ ih hm
    cases hm with
    | ivl _ h => exact .ivl h
    | fin _ h => exact .fin h
    | nom _ _ h => exact .nom (fun n hn => (h n hn).1)
    | or h1 h2 => exact .or h1 (fun e he => ih e (Ev.sizeOf_or he) (h2 e he))
    | and h1 h2 => exact .and h1 (fun e he => ih e (Ev.sizeOf_and he) (h2 e he))

/-- A basic event holds when the value of its expression is in its set of values. -/
theorem Ev.holds_basic {e : Ev} {t : Tr} (h : e.basic? = some t) (ω : Asg) :
    e.holds ω ↔ ∃ v, t.eval ω = some v ∧ v.lift ∈ e.values.den := by
  cases e with
  | or => simp [Ev.basic?] at h
  | and => simp [Ev.basic?] at h
  | ivl t' i =>
    simp [Ev.basic?] at h; subst h
    rw [Ev.holds_ivl]
    constructor
    · rintro ⟨x, h1, h2⟩; exact ⟨_, h1, by simpa [Ev.values, Val.lift] using h2⟩
    · rintro ⟨v, h1, h2⟩
      cases v with
      | str s => simp [Ev.values, Val.lift] at h2
      | num x => exact ⟨x, h1, by simpa [Ev.values, Val.lift] using h2⟩
  | fin t' s =>
    simp [Ev.basic?] at h; subst h
    rw [Ev.holds_fin]
    constructor
    · rintro ⟨x, s, h1, rfl, h2⟩; exact ⟨_, h1, by simpa [Ev.values, Val.lift] using h2⟩
    · rintro ⟨v, h1, h2⟩
      cases s with
      | none => simp [Ev.values] at h2
      | some s =>
        cases v with
        | str s => simp [Ev.values, Val.lift] at h2
        | num x => exact ⟨x, s, h1, rfl, by simpa [Ev.values, Val.lift] using h2⟩
  | nom t' s =>
    simp [Ev.basic?] at h; subst h
    rw [Ev.holds_nom]
    constructor
    · rintro ⟨x, s, h1, rfl, h2⟩; exact ⟨_, h1, by simpa [Ev.values, Val.lift, Piece.den] using h2⟩
    · rintro ⟨v, h1, h2⟩
      cases s with
      | none => simp [Ev.values] at h2
      | some s =>
        cases v with
        | num s => simp [Ev.values, Val.lift] at h2
        | str x => exact ⟨x, s, h1, rfl, by simpa [Ev.values, Val.lift, Piece.den] using h2⟩

theorem Ev.ofSet_spec {t : Tr} {r : SSet EReal} {g : Ev} (h : Ev.ofSet t r = some g) :
    g.basic? = some t ∧ g.values = r := by
  cases r with
  | empty => simp [Ev.ofSet] at h; subst h; simp [Ev.basic?, Ev.values]
  | un => simp [Ev.ofSet] at h
  | pc p => cases p <;> simp [Ev.ofSet] at h <;> subst h <;> simp [Ev.basic?, Ev.values]

theorem Ev.valid_basic {e : Ev} {t : Tr} (h : e.basic? = some t) : e.Valid ↔ e.values.WF := by
  cases e with
  | or => simp [Ev.basic?] at h
  | and => simp [Ev.basic?] at h
  | ivl t' i => exact ⟨fun h => by cases h; assumption, fun h => .ivl h⟩
  | fin t' s =>
    cases s with
    | none => exact ⟨fun h => trivial, fun _ => .fin (by simp)⟩
    | some s => exact ⟨fun h => by cases h with | fin h => exact h s rfl, fun h => .fin (fun _ e => by cases e; exact h)⟩
  | nom t' s =>
    cases s with
    | none => exact ⟨fun h => trivial, fun _ => .nom (by simp)⟩
    | some s => exact ⟨fun h => by cases h with | nom h => exact h s rfl, fun h => .nom (fun _ e => by cases e; exact h)⟩

theorem Ev.values_disj {e : Ev} {t : Tr} (h : e.basic? = some t) : e.values.Disj := by
  cases e with
  | or => simp [Ev.basic?] at h
  | and => simp [Ev.basic?] at h
  | ivl t' i => trivial
  | fin t' s => cases s <;> trivial
  | nom t' s => cases s <;> trivial

theorem Ev.simplify_some {op : SSet EReal → SSet EReal → Res (SSet EReal)} {e f g : Ev}
    (h : Ev.simplify op e f = .ok (some g)) :
    ∃ t r, e.basic? = some t ∧ f.basic? = some t ∧ op e.values f.values = .ok r ∧ g.basic? = some t ∧ g.values = r := by
  unfold Ev.simplify at h
  split at h
  · rename_i t u ht hu
    split at h
    · rename_i heq; subst heq
      simp only [bind, Except.bind] at h
      split at h
      · cases h
      · rename_i r hr
        simp only [Except.ok.injEq] at h
        obtain ⟨h1, h2⟩ := Ev.ofSet_spec h
        exact ⟨t, r, ht, hu, hr, h1, h2⟩
    · cases h
  · cases h

theorem Ev.conjuncts_holds (e : Ev) (ω : Asg) : (∀ x ∈ e.conjuncts, x.holds ω) ↔ e.holds ω := by
  cases e <;> simp [Ev.conjuncts]

theorem Ev.disjuncts_holds (e : Ev) (ω : Asg) : (∃ x ∈ e.disjuncts, x.holds ω) ↔ e.holds ω := by
  cases e <;> simp [Ev.disjuncts]

theorem Ev.conjuncts_valid {e : Ev} (h : e.Valid) : e.conjuncts ≠ [] ∧ ∀ x ∈ e.conjuncts, x.Valid := by
  cases h with
  | and h1 h2 => exact ⟨h1, h2⟩
  | ivl h => simpa [Ev.conjuncts] using Ev.Valid.ivl h
  | fin h => simpa [Ev.conjuncts] using Ev.Valid.fin h
  | nom h => simpa [Ev.conjuncts] using Ev.Valid.nom h
  | or h h' => simpa [Ev.conjuncts] using Ev.Valid.or h h'

theorem Ev.disjuncts_valid {e : Ev} (h : e.Valid) : e.disjuncts ≠ [] ∧ ∀ x ∈ e.disjuncts, x.Valid := by
  cases h with
  | or h1 h2 => exact ⟨h1, h2⟩
  | ivl h => simpa [Ev.disjuncts] using Ev.Valid.ivl h
  | fin h => simpa [Ev.disjuncts] using Ev.Valid.fin h
  | nom h => simpa [Ev.disjuncts] using Ev.Valid.nom h
  | and h h' => simpa [Ev.disjuncts] using Ev.Valid.and h h'

theorem Ev.land_spec {c : Ctx} {e f g : Ev} (he : e.Valid) (hf : f.Valid) (h : e.land c f = .ok g) :
    g.Valid ∧ ∀ ω, g.holds ω ↔ e.holds ω ∧ f.holds ω := by
  unfold Ev.land at h
  simp only [bind, Except.bind] at h
  split at h
  · cases h
  rename_i o ho
  cases o with
  | none =>
    simp only [Option.getD_none, Except.ok.injEq] at h
    subst h
    obtain ⟨a1, a2⟩ := Ev.conjuncts_valid he
    obtain ⟨b1, b2⟩ := Ev.conjuncts_valid hf
    refine ⟨.and (by simp [a1]) ?_, fun ω => ?_⟩
    · intro x hx
      rcases List.mem_append.1 hx with h | h
      · exact a2 x h
      · exact b2 x h
    · rw [Ev.holds_and, ← Ev.conjuncts_holds e, ← Ev.conjuncts_holds f]
      simp only [List.mem_append]
      exact ⟨fun h => ⟨fun x hx => h x (.inl hx), fun x hx => h x (.inr hx)⟩,
        fun h x hx => hx.elim (h.1 x) (h.2 x)⟩
  | some g' =>
    simp only [Option.getD_some, Except.ok.injEq] at h
    subst h
    obtain ⟨t, r, h1, h2, h3, h4, h5⟩ := Ev.simplify_some ho
    have := SSet.and_spec c.σ _ _ ((Ev.valid_basic h1).1 he) (Ev.values_disj h1) ((Ev.valid_basic h2).1 hf) (Ev.values_disj h2) h3
    refine ⟨(Ev.valid_basic h4).2 (h5 ▸ this.wf), fun ω => ?_⟩
    rw [Ev.holds_basic h1, Ev.holds_basic h2, Ev.holds_basic h4, h5]
    constructor
    · rintro ⟨v, hv, hm⟩
      exact ⟨⟨v, hv, (this.sub _ hm).1⟩, ⟨v, hv, (this.sub _ hm).2⟩⟩
    · rintro ⟨⟨v, hv, hm⟩, ⟨w, hw, hm'⟩⟩
      rw [hv] at hw; cases hw
      exact ⟨v, hv, this.sup _ v.lift_proper ⟨hm, hm'⟩⟩

theorem Ev.lor_spec {c : Ctx} {e f g : Ev} (he : e.Valid) (hf : f.Valid) (h : e.lor c f = .ok g) :
    g.Valid ∧ ∀ ω, g.holds ω ↔ e.holds ω ∨ f.holds ω := by
  unfold Ev.lor at h
  simp only [bind, Except.bind] at h
  split at h
  · cases h
  rename_i o ho
  cases o with
  | none =>
    simp only [Option.getD_none, Except.ok.injEq] at h
    subst h
    obtain ⟨a1, a2⟩ := Ev.disjuncts_valid he
    obtain ⟨b1, b2⟩ := Ev.disjuncts_valid hf
    refine ⟨.or (by simp [a1]) ?_, fun ω => ?_⟩
    · intro x hx
      rcases List.mem_append.1 hx with h | h
      · exact a2 x h
      · exact b2 x h
    · rw [Ev.holds_or, ← Ev.disjuncts_holds e, ← Ev.disjuncts_holds f]
      simp only [List.mem_append]
      constructor
      · rintro ⟨x, h | h, hx⟩
        · exact .inl ⟨x, h, hx⟩
        · exact .inr ⟨x, h, hx⟩
      · rintro (⟨x, h, hx⟩ | ⟨x, h, hx⟩)
        · exact ⟨x, .inl h, hx⟩
        · exact ⟨x, .inr h, hx⟩
  | some g' =>
    simp only [Option.getD_some, Except.ok.injEq] at h
    subst h
    obtain ⟨t, r, h1, h2, h3, h4, h5⟩ := Ev.simplify_some ho
    have := SSet.or_spec c.σ _ _ ((Ev.valid_basic h1).1 he) (Ev.values_disj h1) ((Ev.valid_basic h2).1 hf) (Ev.values_disj h2) h3
    refine ⟨(Ev.valid_basic h4).2 (h5 ▸ this.wf), fun ω => ?_⟩
    rw [Ev.holds_basic h1, Ev.holds_basic h2, Ev.holds_basic h4, h5]
    constructor
    · rintro ⟨v, hv, hm⟩
      rcases this.sub _ hm with h | h
      · exact .inl ⟨v, hv, h⟩
      · exact .inr ⟨v, hv, h⟩
    · rintro (⟨v, hv, hm⟩ | ⟨v, hv, hm⟩)
      · exact ⟨v, hv, this.sup _ v.lift_proper (.inl hm)⟩
      · exact ⟨v, hv, this.sup _ v.lift_proper (.inr hm)⟩

theorem reduce_land {c : Ctx} {l : List Ev} (hl : ∀ e ∈ l, e.Valid) {g : Ev} (h : reduceM (Ev.land c) l = .ok g) :
    g.Valid ∧ ∀ ω, g.holds ω ↔ ∀ e ∈ l, e.holds ω := by
  have key : ∀ (l : List Ev), (∀ e ∈ l, e.Valid) → ∀ (s : Ev), s.Valid → ∀ {g}, l.foldlM (Ev.land c) s = .ok g →
      g.Valid ∧ ∀ ω, g.holds ω ↔ s.holds ω ∧ ∀ e ∈ l, e.holds ω := by
    intro l
    induction l with
    | nil => intro _ s hs g h; simp [pure, Except.pure] at h; subst h; exact ⟨hs, fun ω => by simp⟩
    | cons x l ih =>
      intro hl s hs g h
      simp only [List.foldlM_cons, bind, Except.bind] at h
      split at h; · cases h
      rename_i s' hs'
      obtain ⟨h1, h2⟩ := Ev.land_spec hs (hl x (by simp)) hs'
      obtain ⟨h3, h4⟩ := ih (fun e he => hl e (by simp [he])) s' h1 h
      refine ⟨h3, fun ω => ?_⟩
      rw [h4, h2]; simp; tauto
  cases l with
  | nil => simp [reduceM] at h
  | cons x l =>
    obtain ⟨h1, h2⟩ := key l (fun e he => hl e (by simp [he])) x (hl x (by simp)) h
    exact ⟨h1, fun ω => by rw [h2]; simp⟩

theorem reduce_lor {c : Ctx} {l : List Ev} (hl : ∀ e ∈ l, e.Valid) {g : Ev} (h : reduceM (Ev.lor c) l = .ok g) :
    g.Valid ∧ ∀ ω, g.holds ω ↔ ∃ e ∈ l, e.holds ω := by
  have key : ∀ (l : List Ev), (∀ e ∈ l, e.Valid) → ∀ (s : Ev), s.Valid → ∀ {g}, l.foldlM (Ev.lor c) s = .ok g →
      g.Valid ∧ ∀ ω, g.holds ω ↔ s.holds ω ∨ ∃ e ∈ l, e.holds ω := by
    intro l
    induction l with
    | nil => intro _ s hs g h; simp [pure, Except.pure] at h; subst h; exact ⟨hs, fun ω => by simp⟩
    | cons x l ih =>
      intro hl s hs g h
      simp only [List.foldlM_cons, bind, Except.bind] at h
      split at h; · cases h
      rename_i s' hs'
      obtain ⟨h1, h2⟩ := Ev.lor_spec hs (hl x (by simp)) hs'
      obtain ⟨h3, h4⟩ := ih (fun e he => hl e (by simp [he])) s' h1 h
      refine ⟨h3, fun ω => ?_⟩
      rw [h4, h2]; simp; tauto
  cases l with
  | nil => simp [reduceM] at h
  | cons x l =>
    obtain ⟨h1, h2⟩ := key l (fun e he => hl e (by simp [he])) x (hl x (by simp)) h
    exact ⟨h1, fun ω => by rw [h2]; simp⟩

theorem ivlArgs_spec {t : Tr} {ps : List (Piece EReal)} {l : List Ev} (h : ivlArgs t ps = .ok l) :
    ∃ is : List (Ivl EReal), ps = is.map .ivl ∧ l = is.map (.ivl t) := by
  induction ps generalizing l with
  | nil => simp [ivlArgs] at h; subst h; exact ⟨[], rfl, rfl⟩
  | cons p ps ih =>
    cases p with
    | ivl i =>
      simp only [ivlArgs, bind, Except.bind] at h
      split at h; · cases h
      rename_i r hr
      cases h
      obtain ⟨is, h1, h2⟩ := ih hr
      exact ⟨i :: is, by simp [h1], by simp [h2]⟩
    | fin => simp [ivlArgs] at h
    | nom => simp [ivlArgs] at h

theorem holds_ivlArgs {t : Tr} {u : Un EReal} (hu : u.WF) {l : List Ev} (h : ivlArgs t u.args = .ok l) :
    (Ev.or l).Valid ∧ ∀ ω, (Ev.or l).holds ω ↔ ∃ x, t.eval ω = some (.num x) ∧ Val.num (x : EReal) ∈ (SSet.un u).den := by
  obtain ⟨is, h1, rfl⟩ := ivlArgs_spec h
  have hm : ∀ p, p ∈ u.values ↔ ∃ i ∈ is, p = .ivl i := by
    intro p; rw [← hu.mem_args, h1]; simp [eq_comm]
  refine ⟨.or ?_ ?_, fun ω => ?_⟩
  · intro hnil
    have : is = [] := by simpa using hnil
    subst this
    have h2 := hu.two_le
    cases hv : u.values with
    | nil => rw [hv] at h2; simp at h2
    | cons p l => have := (hm p).1 (by simp [hv]); simp at this
  · intro e he
    obtain ⟨i, hi, rfl⟩ := List.mem_map.1 he
    exact .ivl (hu.pieces _ ((hm _).2 ⟨i, hi, rfl⟩))
  · rw [Ev.holds_or]
    constructor
    · rintro ⟨e, he, hh⟩
      obtain ⟨i, hi, rfl⟩ := List.mem_map.1 he
      rw [Ev.holds_ivl] at hh
      obtain ⟨x, hx, hm'⟩ := hh
      exact ⟨x, hx, ⟨_, (hm _).2 ⟨i, hi, rfl⟩, by simpa using hm'⟩⟩
    · rintro ⟨x, hx, ⟨p, hp, hm'⟩⟩
      obtain ⟨i, hi, rfl⟩ := (hm p).1 hp
      exact ⟨_, List.mem_map_of_mem hi, by rw [Ev.holds_ivl]; exact ⟨x, hx, by simpa using hm'⟩⟩

theorem pureReal_ivl (i : Ivl EReal) : (SSet.pc (.ivl i)).PureReal := by intro n; simp
theorem pureReal_fin (v : Option (Finset EReal)) : (optFin v).PureReal := by
  cases v with
  | none => trivial
  | some s => intro n; simp

theorem Ev.not_spec {c : Ctx} : ∀ e : Ev, e.Valid → ∀ {g : Ev}, e.not c = .ok g →
    g.Valid ∧ ∀ ω, e.Typed ω → (g.holds ω ↔ ¬ e.holds ω) := by
  refine (sizeInd (P := fun _ => True) (Q := fun e => e.Valid → ∀ {g : Ev}, e.not c = .ok g →
    g.Valid ∧ ∀ ω, e.Typed ω → (g.holds ω ↔ ¬ e.holds ω)) (fun _ _ _ => trivial) ?_).2
  intro e hT0 ih he g h
  clear hT0
  cases he with
  | ivl hi =>
    rename_i t i
    simp only [Ev.not, bind, Except.bind] at h
    split at h; · cases h
    rename_i r hr
    have hinv := SSet.invert_real c.σ _ (show (SSet.pc (.ivl i)).WF from hi) (pureReal_ivl i) hr
    have key : ∀ x : ℝ, Val.num (x : EReal) ∈ r.den ↔ ¬ i.Mem (x : EReal) := by
      intro x
      rw [hinv.num]; simp [Fin']
    have fin : ∀ {g : Ev}, (∀ ω, g.holds ω ↔ ∃ x, t.eval ω = some (.num x) ∧ Val.num (x : EReal) ∈ r.den) →
        ∀ ω, (Ev.ivl t i).Typed ω → (g.holds ω ↔ ¬ (Ev.ivl t i).holds ω) := by
      intro g hg ω hT
      simp only [Ev.Typed] at hT
      obtain ⟨x, hx⟩ := hT
      rw [hg, Ev.holds_ivl, hx]
      simp [key]
    cases r with
    | empty =>
      simp [notIvl] at h; subst h
      exact ⟨.fin (by simp), fin (fun ω => by simp)⟩
    | pc p =>
      cases p with
      | ivl j =>
        simp [notIvl] at h; subst h
        exact ⟨.ivl hinv.wf, fin (fun ω => by simp)⟩
      | fin => simp [notIvl] at h
      | nom => simp [notIvl] at h
    | un u =>
      simp only [notIvl] at h
      split at h
      · cases hl : ivlArgs t u.args with
        | error e => simp [hl, Except.map] at h
        | ok l =>
          simp [hl, Except.map] at h; subst h
          obtain ⟨h1, h2⟩ := holds_ivlArgs hinv.wf hl
          exact ⟨h1, fin h2⟩
      · cases h
  | fin hv =>
    rename_i t v
    simp only [Ev.not, bind, Except.bind] at h
    split at h; · cases h
    rename_i r hr
    have hwf : (optFin v).WF := by
      cases v with
      | none => trivial
      | some s => exact hv s rfl
    have hinv := SSet.invert_real c.σ _ hwf (pureReal_fin v) hr
    have key : ∀ x : ℝ, Val.num (x : EReal) ∈ r.den ↔ ¬ ∃ s, v = some s ∧ (x : EReal) ∈ s := by
      intro x
      rw [hinv.num]; cases v <;> simp [Fin', optFin]
    have fin : ∀ {g : Ev}, (∀ ω, g.holds ω ↔ ∃ x, t.eval ω = some (.num x) ∧ Val.num (x : EReal) ∈ r.den) →
        ∀ ω, (Ev.fin t v).Typed ω → (g.holds ω ↔ ¬ (Ev.fin t v).holds ω) := by
      intro g hg ω hT
      simp only [Ev.Typed] at hT
      obtain ⟨x, hx⟩ := hT
      rw [hg, Ev.holds_fin, hx]
      simp [key]
    cases r with
    | empty => simp [notFin] at h
    | pc p =>
      cases p with
      | ivl j =>
        simp only [notFin] at h
        split at h
        · cases h; exact ⟨.ivl hinv.wf, fin (fun ω => by simp)⟩
        · cases h
      | fin => simp [notFin] at h
      | nom => simp [notFin] at h
    | un u =>
      simp only [notFin] at h
      cases hl : ivlArgs t u.args with
      | error e => simp [hl, Except.map] at h
      | ok l =>
        simp [hl, Except.map] at h; subst h
        obtain ⟨h1, h2⟩ := holds_ivlArgs hinv.wf hl
        exact ⟨h1, fin h2⟩
  | nom hv =>
    rename_i t v
    simp only [Ev.not, bind, Except.bind] at h
    split at h; · cases h
    rename_i r hr
    cases v with
    | none =>
      simp only [optNom, SSet.invert, bind, Except.bind] at hr
      split at hr
      · cases hr
      · cases hr; simp [notNom] at h
    | some n =>
      obtain ⟨r', h1, h2, h3, h4, h5⟩ := Nom.invert_spec (E := EReal) n (hv n rfl)
      have : r = r' := by
        have : SSet.invert c.σ (optNom (some n)) = n.invert := rfl
        rw [this, h1] at hr; cases hr; rfl
      subst this
      have fin : ∀ {g : Ev}, (∀ ω, g.holds ω ↔ ∃ v, t.eval ω = some v ∧ v.lift ∈ r.den) →
          ∀ ω, (Ev.nom t (some n)).Typed ω → (g.holds ω ↔ ¬ (Ev.nom t (some n)).holds ω) := by
        intro g hg ω hT
        simp only [Ev.Typed] at hT
        obtain ⟨x, hx⟩ := hT
        rw [hg, Ev.holds_nom, hx]
        simp only [Option.some.injEq, exists_eq_left', Val.lift, h5, Val.str.injEq]
        simp [Nom.has, Nom.neg]
        split <;> simp
      cases r with
      | empty =>
        simp [notNom] at h; subst h
        exact ⟨.nom (by simp), fin (fun ω => by simp)⟩
      | pc p =>
        cases p with
        | nom m =>
          simp [notNom] at h; subst h
          refine ⟨.nom (fun _ e => by cases e; exact h2), fin (fun ω => ?_)⟩
          exact Ev.holds_basic (e := .nom t (some m)) rfl ω
        | fin => simp [notNom] at h
        | ivl => simp [notNom] at h
      | un u => simp [notNom] at h
  | or hne hes =>
    rename_i es
    simp only [Ev.not, bind, Except.bind] at h
    split at h; · cases h
    rename_i fs hfs
    have hF : List.Forall₂ (fun e f => e.not c = .ok f) es fs := by
      clear h hne hes ih
      induction es generalizing fs with
      | nil => simp [Ev.notL] at hfs; subst hfs; exact .nil
      | cons e es ih =>
        simp only [Ev.notL, bind, Except.bind] at hfs
        split at hfs; · cases hfs
        split at hfs; · cases hfs
        cases hfs
        exact .cons (by assumption) (ih _ (by assumption))
    have hv : ∀ f ∈ fs, f.Valid := by
      intro f hf
      obtain ⟨e, he, hef⟩ := forall₂_mem_right hF hf
      exact (ih e (Ev.sizeOf_or he) (hes e he) hef).1
    obtain ⟨h1, h2⟩ := reduce_land hv h
    refine ⟨h1, fun ω hT => ?_⟩
    simp only [Ev.Typed, Ev.typedL_iff] at hT
    rw [h2, Ev.holds_or]
    push Not
    constructor
    · intro hh e he
      obtain ⟨f, hf, hef⟩ := forall₂_mem_left hF he
      exact ((ih e (Ev.sizeOf_or he) (hes e he) hef).2 ω (hT e he)).1 (hh f hf)
    · intro hh f hf
      obtain ⟨e, he, hef⟩ := forall₂_mem_right hF hf
      exact ((ih e (Ev.sizeOf_or he) (hes e he) hef).2 ω (hT e he)).2 (hh e he)
  | and hne hes =>
    rename_i es
    simp only [Ev.not, bind, Except.bind] at h
    split at h; · cases h
    rename_i fs hfs
    have hF : List.Forall₂ (fun e f => e.not c = .ok f) es fs := by
      clear h hne hes ih
      induction es generalizing fs with
      | nil => simp [Ev.notL] at hfs; subst hfs; exact .nil
      | cons e es ih =>
        simp only [Ev.notL, bind, Except.bind] at hfs
        split at hfs; · cases hfs
        split at hfs; · cases hfs
        cases hfs
        exact .cons (by assumption) (ih _ (by assumption))
    have hv : ∀ f ∈ fs, f.Valid := by
      intro f hf
      obtain ⟨e, he, hef⟩ := forall₂_mem_right hF hf
      exact (ih e (Ev.sizeOf_and he) (hes e he) hef).1
    obtain ⟨h1, h2⟩ := reduce_lor hv h
    refine ⟨h1, fun ω hT => ?_⟩
    simp only [Ev.Typed, Ev.typedL_iff] at hT
    rw [h2, Ev.holds_and]
    push Not
    constructor
    · rintro ⟨f, hf, hh⟩
      obtain ⟨e, he, hef⟩ := forall₂_mem_right hF hf
      exact ⟨e, he, ((ih e (Ev.sizeOf_and he) (hes e he) hef).2 ω (hT e he)).1 hh⟩
    · rintro ⟨e, he, hh⟩
      obtain ⟨f, hf, hef⟩ := forall₂_mem_left hF he
      exact ⟨f, hf, ((ih e (Ev.sizeOf_and he) (hes e he) hef).2 ω (hT e he)).2 hh⟩

theorem Ev.xor_spec {c : Ctx} {e f g : Ev} (he : e.Valid) (hf : f.Valid) (h : e.xor c f = .ok g) :
    g.Valid ∧ ∀ ω, e.Typed ω → f.Typed ω → (g.holds ω ↔ (e.holds ω ∧ ¬ f.holds ω) ∨ (¬ e.holds ω ∧ f.holds ω)) := by
  unfold Ev.xor at h
  simp only [bind, Except.bind] at h
  split at h; · cases h
  rename_i nf hnf
  split at h; · cases h
  rename_i a ha
  split at h; · cases h
  rename_i ne hne
  split at h; · cases h
  rename_i b hb
  obtain ⟨v1, s1⟩ := Ev.not_spec f hf hnf
  obtain ⟨v2, s2⟩ := Ev.land_spec he v1 ha
  obtain ⟨v3, s3⟩ := Ev.not_spec e he hne
  obtain ⟨v4, s4⟩ := Ev.land_spec v3 hf hb
  obtain ⟨v5, s5⟩ := Ev.lor_spec v2 v4 h
  exact ⟨v5, fun ω h1 h2 => by rw [s5, s2, s4, s1 ω h2, s3 ω h1]⟩

end Sppl
