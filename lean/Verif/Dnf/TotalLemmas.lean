import Verif.Dnf.TotalSpec
import Verif.Dnf.TermProps
import Verif.Sets.CutLemmas

set_option linter.all false

/-!
# The operations of `dnf.py` on events about plain variables never raise (helper lemmas)
-/

namespace Sppl
open Classical

/-! ## Sets -/

theorem pieces_and_total (σ : Orders EReal) {s t : SSet EReal} (hs : s.WF) (ht : t.WF) (hs' : ∀ u, s ≠ .un u) (ht' : ∀ u, t ≠ .un u) :
    ∃ r, SSet.and σ s t = .ok r := by
  cases s with
  | empty => cases t <;> exact ⟨_, rfl⟩
  | un u => exact absurd rfl (hs' u)
  | pc p =>
    cases t with
    | empty => exact ⟨_, rfl⟩
    | un u => exact absurd rfl (ht' u)
    | pc q =>
      obtain ⟨r, hr, -⟩ := Piece.and_spec p q hs ht
      exact ⟨r, by simpa [SSet.and] using hr⟩

theorem pieces_or_total (σ : Orders EReal) {s t : SSet EReal} (hs : s.WF) (ht : t.WF) (hs' : ∀ u, s ≠ .un u) (ht' : ∀ u, t ≠ .un u) :
    ∃ r, SSet.or σ s t = .ok r := by
  cases s with
  | empty => cases t <;> exact ⟨_, rfl⟩
  | un u => exact absurd rfl (hs' u)
  | pc p =>
    cases t with
    | empty => exact ⟨_, rfl⟩
    | un u => exact absurd rfl (ht' u)
    | pc q =>
      obtain ⟨r, hr, -⟩ := Piece.or_spec σ p q hs ht
      exact ⟨r, by simpa [SSet.or] using hr⟩

theorem mkIvl_of_lt {a b : EReal} {lo ro : Bool} (h : a < b) : ∃ i, mkIvl a b lo ro = .ok i := by
  unfold mkIvl; rw [if_pos h]; exact ⟨_, rfl⟩

/-- `~FiniteReal` of finite numbers returns a union of intervals. -/
theorem finInvert_total (σ : Orders EReal) {s : Finset EReal} (hs : s.Nonempty) (hb : ∀ x ∈ s, x ≠ ⊥ ∧ x ≠ ⊤) :
    ∃ u, finInvert σ s = .ok (.un u) ∧ u.WF ∧ ∀ p ∈ u.values, ∃ i, p = .ivl i := by
  have hpw : (s.sort (· ≤ ·)).Pairwise (· < ·) := (Finset.sortedLT_sort s).pairwise
  have hsort : ∀ x, x ∈ s.sort (· ≤ ·) ↔ x ∈ s := fun x => Finset.mem_sort _
  suffices h : ∃ r, finInvert σ s = .ok r by
    obtain ⟨r, hr⟩ := h
    have hr0 := hr
    unfold finInvert at hr
    dsimp only at hr
    split at hr
    · rename_i v0 rest vl hv hl
      simp only [bind, Except.bind] at hr
      split at hr; · cases hr
      split at hr; · cases hr
      split at hr; · cases hr
      obtain ⟨u, rfl, h1, -⟩ := mkUnion_ok hr
      have hw := (finInvert_spec σ s hr0).1.wf
      refine ⟨u, hr0, hw, fun p hp => ?_⟩
      have := (h1 p).1 hp
      obtain ⟨i, -, hi⟩ := List.mem_map.1 this
      exact ⟨i, by cases hi; rfl⟩
    · cases hr
  unfold finInvert
  dsimp only
  revert hpw hsort
  generalize s.sort (· ≤ ·) = vs
  intro hpw hsort
  cases vs with
  | nil =>
    obtain ⟨x, hx⟩ := hs
    exact absurd ((hsort x).2 hx) (by simp)
  | cons v0 rest =>
    have hl : (v0 :: rest).getLast? = some ((v0 :: rest).getLast (by simp)) := List.getLast?_eq_some_getLast (by simp)
    generalize (v0 :: rest).getLast (by simp) = vl at hl
    rw [hl]
    simp only [bind, Except.bind]
    have hvl : vl ∈ v0 :: rest := List.mem_of_getLast? hl
    have h0 := hb v0 ((hsort v0).1 (by simp))
    have h1 := hb vl ((hsort vl).1 hvl)
    rw [show mkIvl ⊥ v0 false true = .ok (⟨⊥, v0, true, true⟩ : Ivl EReal) by unfold mkIvl; rw [if_pos (bot_lt_iff_ne_bot.2 h0.1)]; simp]
    rw [show mkIvl vl ⊤ true false = .ok (⟨vl, ⊤, true, true⟩ : Ivl EReal) by unfold mkIvl; rw [if_pos (lt_top_iff_ne_top.2 h1.2)]; simp]
    have hz : ∀ p ∈ (v0 :: rest).zip (v0 :: rest).tail, p.1 < p.2 := by
      intro p hp
      obtain ⟨i, hi, rfl⟩ := List.mem_iff_getElem.1 hp
      simp only [List.length_zip, List.length_tail] at hi
      simp only [List.getElem_zip, List.getElem_tail]
      exact List.pairwise_iff_getElem.1 hpw _ _ _ _ (by omega)
    obtain ⟨mids, hm, -⟩ := mapM_total (P := fun _ => True) (f := fun p : EReal × EReal => mkIvl p.1 p.2 true true)
      (l := (v0 :: rest).zip (v0 :: rest).tail) (fun p hp => by obtain ⟨i, hi⟩ := mkIvl_of_lt (lo := true) (ro := true) (hz p hp); exact ⟨i, hi, trivial⟩)
    rw [hm]
    simp only
    obtain ⟨u, hu⟩ := mkUnion_total (σ := σ) (vs := ([(⟨⊥, v0, true, true⟩ : Ivl EReal)] ++ mids ++ [(⟨vl, ⊤, true, true⟩ : Ivl EReal)]).map (fun i => .pc (.ivl i)))
      (by intro u hu; simp at hu)
      (by
        have : ∀ l : List (Ivl EReal), (l.map (fun i => SSet.pc (.ivl i)) |>.filterMap SSet.piece? |>.filterMap Piece.nom?) = [] := by
          intro l; induction l <;> simp_all [SSet.piece?, Piece.nom?]
        rw [this]; simp)
      (by
        have : ∀ l : List (Ivl EReal), (l.map (fun i => SSet.pc (.ivl i)) |>.filterMap SSet.piece? |>.filterMap Piece.fin?) = [] := by
          intro l; induction l <;> simp_all [SSet.piece?, Piece.fin?]
        rw [this]; simp)
      ⟨.ivl ⟨⊥, v0, true, true⟩, .ivl ⟨vl, ⊤, true, true⟩, by
        intro h; injection h with h; injection h with h; exact h1.1 h.symm, by simp, by simp⟩
    exact ⟨_, hu⟩

/-! ## Basic events about a variable -/

/-- A basic event about a plain variable whose numbers are finite and satisfy `Q`. -/
def PlainLit (Q : String → EReal → Prop) (l : Ev) : Prop := l.Valid ∧ ∃ k, l.basic? = some (.id k) ∧ l.values.Within (Q k)

variable {Q : String → EReal → Prop}

theorem Ev.Simple.all {e : Ev} (h : e.Simple Q) : e.Valid ∧ e.All (PlainLit Q) := by
  induction h with
  | ivl h1 h2 => exact ⟨.ivl h1, .lit rfl ⟨.ivl h1, _, rfl, h2⟩⟩
  | fin h1 h2 => 
    refine ⟨.fin (fun _ e => by cases e; exact h1), .lit rfl ⟨.fin (fun _ e => by cases e; exact h1), _, rfl, h2⟩⟩
  | finEmpty => 
    exact ⟨.fin (by simp), .lit rfl ⟨.fin (by simp), _, rfl, trivial⟩⟩
  | nom h1 => 
    exact ⟨.nom (fun _ e => by cases e; exact h1), .lit rfl ⟨.nom (fun _ e => by cases e; exact h1), _, rfl, trivial⟩⟩
  | nomEmpty => 
    exact ⟨.nom (by simp), .lit rfl ⟨.nom (by simp), _, rfl, trivial⟩⟩
  | or hne _ ih => exact ⟨.or hne (fun e he => (ih e he).1), Ev.all_or.2 (fun e he => (ih e he).2)⟩
  | and hne _ ih => exact ⟨.and hne (fun e he => (ih e he).1), Ev.all_and.2 (fun e he => (ih e he).2)⟩

theorem PlainLit.var {l : Ev} (h : PlainLit Q l) : VarLit l := by obtain ⟨_, k, hk, _⟩ := h; exact ⟨k, hk⟩

theorem within_noInf {R : EReal → Prop} {S : SSet EReal} (hw : S.WF) (hu : ∀ u, S ≠ .un u) (h : S.Within R) : NoInf S := by
  cases S with
  | empty => intro v hv; simp at hv
  | un u => exact absurd rfl (hu u)
  | pc p =>
    cases p with
    | nom n => rintro v ⟨x, rfl, hx⟩; trivial
    | fin s => rintro v ⟨x, rfl, hx⟩; exact ⟨(h x hx).1, (h x hx).2.1⟩
    | ivl i => rintro v ⟨x, rfl, hx⟩; exact ivl_proper hw hx

theorem within_ends {R : EReal → Prop} {S : SSet EReal} (hu : ∀ u, S ≠ .un u) (h : S.Within R) :
    ∃ A B, S.Ends A B ∧ ⊥ ∈ A ∧ ⊤ ∈ A ∧ ∀ a ∈ A, a ≠ ⊥ → a ≠ ⊤ → R a := by
  cases S with
  | empty => exact ⟨{⊥, ⊤}, ∅, trivial, by simp, by simp, by simp⟩
  | un u => exact absurd rfl (hu u)
  | pc p =>
    cases p with
    | nom n => exact ⟨{⊥, ⊤}, n.vals, Finset.Subset.refl _, by simp, by simp, by simp⟩
    | fin s =>
      refine ⟨insert ⊥ (insert ⊤ s), ∅, by intro x hx; simp [hx], by simp, by simp, ?_⟩
      intro a ha h1 h2
      simp [h1, h2] at ha
      exact (h a ha).2.2
    | ivl i =>
      refine ⟨{⊥, ⊤, i.a, i.b}, ∅, by simp [SSet.Ends, Piece.Ends], by simp, by simp, ?_⟩
      intro a ha h1 h2
      simp [h1, h2] at ha
      rcases ha with rfl | rfl
      · exact h.1 h1
      · exact h.2 h2

theorem ends_within {R : EReal → Prop} {S : SSet EReal} {A : Finset EReal} {B : Finset String} (hw : S.WF) (hu : ∀ u, S ≠ .un u) (h : S.Ends A B)
    (hn : NoInf S) (hA : ∀ a ∈ A, a ≠ ⊥ → a ≠ ⊤ → R a) : S.Within R := by
  cases S with
  | empty => trivial
  | un u => exact absurd rfl (hu u)
  | pc p =>
    cases p with
    | nom n => trivial
    | fin s =>
      intro x hx
      have := hn (.num x) ⟨x, rfl, hx⟩
      exact ⟨this.1, this.2, hA x (h hx) this.1 this.2⟩
    | ivl i =>
      have hlt : i.a < i.b := hw.1
      exact ⟨fun h1 => hA _ h.1 h1 (ne_top_of_lt hlt), fun h2 => hA _ h.2 (ne_bot_of_gt hlt) h2⟩

theorem PlainLit.ends {l : Ev} (h : PlainLit Q l) : ∃ k A B, l.basic? = some (.id k) ∧ EndLit {k} A B l ∧ NoInfLit l ∧ ⊥ ∈ A ∧ ⊤ ∈ A ∧
    ∀ a ∈ A, a ≠ ⊥ → a ≠ ⊤ → Q k a := by
  obtain ⟨hv, k, hk, hw⟩ := h
  obtain ⟨A, B, h1, h2, h3, h4⟩ := within_ends (Ev.values_not_un l) hw
  exact ⟨k, A, B, hk, ⟨hv, k, by simp, hk, h1⟩, ⟨hv, within_noInf ((Ev.valid_basic hk).1 hv) (Ev.values_not_un l) hw⟩, h2, h3, h4⟩

theorem plainLit_of {l : Ev} {k : String} {A : Finset EReal} {B : Finset String} (h : EndLit {k} A B l) (hn : NoInf l.values)
    (hA : ∀ a ∈ A, a ≠ ⊥ → a ≠ ⊤ → Q k a) : PlainLit Q l := by
  obtain ⟨hv, k', hk', hb, he⟩ := h
  simp at hk'; subst hk'
  exact ⟨hv, k', hb, ends_within ((Ev.valid_basic hb).1 hv) (Ev.values_not_un l) he hn hA⟩

theorem plainLit_pair {e f : Ev} {t : Tr} (he : PlainLit Q e) (hf : PlainLit Q f) (h1 : e.basic? = some t) (h2 : f.basic? = some t) :
    ∃ k A B, EndLit {k} A B e ∧ EndLit {k} A B f ∧ NoInfLit e ∧ NoInfLit f ∧ ∀ a ∈ A, a ≠ ⊥ → a ≠ ⊤ → Q k a := by
  obtain ⟨k, A, B, hk, he1, he2, -, -, he3⟩ := he.ends
  obtain ⟨k', A', B', hk', hf1, hf2, -, -, hf3⟩ := hf.ends
  rw [h1] at hk; rw [h2] at hk'; rw [hk] at hk'; cases hk'
  refine ⟨k, A ∪ A', B ∪ B', he1.mono (Finset.Subset.refl _) Finset.subset_union_left Finset.subset_union_left,
    hf1.mono (Finset.Subset.refl _) Finset.subset_union_right Finset.subset_union_right, he2, hf2, ?_⟩
  intro a ha
  rcases Finset.mem_union.1 ha with ha | ha
  · exact he3 a ha
  · exact hf3 a ha

theorem plainLit_and {c : Ctx} : ∀ e f g : Ev, PlainLit Q e → PlainLit Q f → Ev.simplify (SSet.and c.σ) e f = .ok (some g) → PlainLit Q g := by
  intro e f g he hf h
  obtain ⟨t, r, a1, a2, a3, a4, a5⟩ := Ev.simplify_some h
  obtain ⟨k, A, B, h1, h2, h3, h4, h5⟩ := plainLit_pair he hf a1 a2
  exact plainLit_of (endLit_and e f g h1 h2 h) (noInf_and e f g h3 h4 h).2 h5

theorem plainLit_or {c : Ctx} : ∀ e f g : Ev, PlainLit Q e → PlainLit Q f → Ev.simplify (SSet.or c.σ) e f = .ok (some g) → PlainLit Q g := by
  intro e f g he hf h
  obtain ⟨t, r, a1, a2, a3, a4, a5⟩ := Ev.simplify_some h
  obtain ⟨k, A, B, h1, h2, h3, h4, h5⟩ := plainLit_pair he hf a1 a2
  refine plainLit_of (endLit_or e f g h1 h2 h) ?_ h5
  have := SSet.or_spec c.σ _ _ ((Ev.valid_basic a1).1 he.1) (Ev.values_disj a1) ((Ev.valid_basic a2).1 hf.1) (Ev.values_disj a2) a3
  intro v hv
  rcases this.sub v (a5 ▸ hv) with hv | hv
  · exact h3.2 v hv
  · exact h4.2 v hv

/-! ## `&` and `|` of events are total -/

theorem simplify_total {op : SSet EReal → SSet EReal → Res (SSet EReal)} (hop : ∀ s t, s.WF → t.WF → (∀ u, s ≠ .un u) → (∀ u, t ≠ .un u) → ∃ r, op s t = .ok r)
    {e f : Ev} (he : e.Valid) (hf : f.Valid) : ∃ o, Ev.simplify op e f = .ok o := by
  unfold Ev.simplify
  split
  · rename_i t u h1 h2
    split
    · obtain ⟨r, hr⟩ := hop e.values f.values ((Ev.valid_basic h1).1 he) ((Ev.valid_basic h2).1 hf) (Ev.values_not_un e) (Ev.values_not_un f)
      simp only [hr, bind, Except.bind]
      exact ⟨_, rfl⟩
    · exact ⟨_, rfl⟩
  · exact ⟨_, rfl⟩

theorem Ev.land_total (c : Ctx) {e f : Ev} (he : e.Valid) (hf : f.Valid) : ∃ g, e.land c f = .ok g := by
  obtain ⟨o, ho⟩ := simplify_total (fun s t h1 h2 h3 h4 => pieces_and_total c.σ h1 h2 h3 h4) he hf
  unfold Ev.land
  simp only [ho, bind, Except.bind]
  exact ⟨_, rfl⟩

theorem Ev.lor_total (c : Ctx) {e f : Ev} (he : e.Valid) (hf : f.Valid) : ∃ g, e.lor c f = .ok g := by
  obtain ⟨o, ho⟩ := simplify_total (fun s t h1 h2 h3 h4 => pieces_or_total c.σ h1 h2 h3 h4) he hf
  unfold Ev.lor
  simp only [ho, bind, Except.bind]
  exact ⟨_, rfl⟩

theorem reduceM_land_total (c : Ctx) {l : List Ev} (hne : l ≠ []) (hl : ∀ e ∈ l, e.Valid) : ∃ g, reduceM (Ev.land c) l = .ok g ∧ g.Valid :=
  reduceM_total (P := Ev.Valid) (fun a b ha hb => by
    obtain ⟨g, hg⟩ := Ev.land_total c ha hb
    exact ⟨g, hg, (Ev.land_spec ha hb hg).1⟩) hne hl

theorem reduceM_lor_total (c : Ctx) {l : List Ev} (hne : l ≠ []) (hl : ∀ e ∈ l, e.Valid) : ∃ g, reduceM (Ev.lor c) l = .ok g ∧ g.Valid :=
  reduceM_total (P := Ev.Valid) (fun a b ha hb => by
    obtain ⟨g, hg⟩ := Ev.lor_total c ha hb
    exact ⟨g, hg, (Ev.lor_spec ha hb hg).1⟩) hne hl

/-! ## `~` of events -/

theorem ivlArgs_total (t : Tr) : ∀ {ps : List (Piece EReal)}, (∀ p ∈ ps, ∃ i, p = .ivl i) → ∃ l, ivlArgs t ps = .ok l := by
  intro ps
  induction ps with
  | nil => intro _; exact ⟨_, rfl⟩
  | cons p ps ih =>
    intro h
    obtain ⟨i, rfl⟩ := h p (by simp)
    obtain ⟨l, hl⟩ := ih (fun p hp => h p (by simp [hp]))
    simp only [ivlArgs, hl, bind, Except.bind]
    exact ⟨_, rfl⟩

/-- `~` of a basic event that compares with finite numbers only raises on the empty set of strings. -/
theorem not_lit_total (c : Ctx) {l : Ev} (hl : PlainLit Q l) (hn : ∀ t, l ≠ .nom t none) : ∃ g, l.not c = .ok g := by
  obtain ⟨hv, k, hk, hw⟩ := hl
  have hwf := (Ev.valid_basic hk).1 hv
  cases l with
  | or => simp [Ev.basic?] at hk
  | and => simp [Ev.basic?] at hk
  | ivl t i =>
    obtain ⟨r, hr, -⟩ := Ivl.invert_spec c.σ i hwf
    have hi : i.WF := hwf
    simp only [Ev.not, SSet.invert, Piece.invert, hr, bind, Except.bind]
    unfold Ivl.invert at hr
    split at hr
    · split at hr
      · cases hr; exact ⟨_, rfl⟩
      · simp only [bind, Except.bind] at hr
        split at hr; · cases hr
        cases hr; exact ⟨_, rfl⟩
    · split at hr
      · simp only [bind, Except.bind] at hr
        split at hr; · cases hr
        cases hr; exact ⟨_, rfl⟩
      · simp only [bind, Except.bind] at hr
        split at hr; · cases hr
        rename_i l hl
        split at hr; · cases hr
        rename_i r' hr'
        unfold mkUnion at hr
        split at hr; · cases hr
        dsimp only at hr
        split at hr; · cases hr
        split at hr; · cases hr
        split at hr; · cases hr
        split at hr; · cases hr
        cases hr
        simp only [notIvl, List.filterMap_cons, SSet.piece?, List.filterMap_nil, List.length_cons, List.length_nil, if_true]
        obtain ⟨l', hl'⟩ := ivlArgs_total t (ps := [Piece.ivl l, Piece.ivl r']) (by simp)
        rw [hl']; exact ⟨_, rfl⟩
  | fin t v =>
    cases v with
    | none =>
      simp only [Ev.not, optFin, SSet.invert, bind, Except.bind, mkIvl]
      rw [if_pos (by exact bot_lt_top)]
      simp [notFin]
    | some s =>
      obtain ⟨u, hu, hu1, hu2⟩ := finInvert_total c.σ (s := s) hwf (fun x hx => ⟨(hw x hx).1, (hw x hx).2.1⟩)
      simp only [Ev.not, optFin, SSet.invert, Piece.invert, hu, bind, Except.bind, notFin]
      obtain ⟨l, hl⟩ := ivlArgs_total t (ps := u.args) (fun p hp => hu2 p ((hu1.mem_args p).1 hp))
      rw [hl]; exact ⟨_, rfl⟩
  | nom t v =>
    cases v with
    | none => exact absurd rfl (hn t)
    | some m =>
      obtain ⟨r, hr, -⟩ := Nom.invert_spec (E := EReal) m hwf
      simp only [Ev.not, optNom, SSet.invert, Piece.invert, hr, bind, Except.bind]
      unfold Nom.invert at hr
      split at hr
      · split at hr
        · cases hr; exact ⟨_, rfl⟩
        · cases hr
      · simp only [bind, Except.bind] at hr
        split at hr; · cases hr
        cases hr; exact ⟨_, rfl⟩

/-- The negation of a basic event is made of intervals, of sets of strings and of the empty set. -/
theorem not_lit_noFin {c : Ctx} {e g : Ev} {t : Tr} (ht : e.basic? = some t) (h : e.not c = .ok g) : g.All (fun l => ∀ t s, l ≠ .fin t (some s)) := by
  have hi : ∀ {u : Un EReal} {l : List Ev} {t : Tr}, ivlArgs t u.args = .ok l → (Ev.or l).All (fun l => ∀ t s, l ≠ .fin t (some s)) := by
    intro u l t h
    obtain ⟨is, h1, rfl⟩ := ivlArgs_spec h
    refine Ev.all_or.2 (fun x hx => ?_)
    obtain ⟨i, hi, rfl⟩ := List.mem_map.1 hx
    exact .lit rfl (by simp)
  cases e with
  | or => simp [Ev.basic?] at ht
  | and => simp [Ev.basic?] at ht
  | ivl t i =>
    simp only [Ev.not, bind, Except.bind] at h
    split at h; · cases h
    unfold notIvl at h
    split at h
    · cases h; exact .lit rfl (by simp)
    · cases h; exact .lit rfl (by simp)
    · split at h
      · simp only [Except.map] at h
        split at h; · cases h
        rename_i l hl
        cases h; exact hi hl
      · cases h
    · cases h
  | fin t v =>
    simp only [Ev.not, bind, Except.bind] at h
    split at h; · cases h
    unfold notFin at h
    split at h
    · split at h
      · cases h; exact .lit rfl (by simp)
      · cases h
    · simp only [Except.map] at h
      split at h; · cases h
      rename_i l hl
      cases h; exact hi hl
    · cases h
  | nom t v =>
    simp only [Ev.not, bind, Except.bind] at h
    split at h; · cases h
    unfold notNom at h
    split at h
    · cases h; exact .lit rfl (by simp)
    · cases h; exact .lit rfl (by simp)
    · cases h

theorem plainLit_not {c : Ctx} {e g : Ev} (he : PlainLit Q e) (h : e.not c = .ok g) : g.All (PlainLit Q) := by
  obtain ⟨k, A, B, hk, h1, h2, hb, ht, h3⟩ := he.ends
  have hE := endLit_not hb ht h1 h
  refine (hE.and' (not_lit_noFin hk h)).mono (fun l t ht hl => plainLit_of hl.1 ?_ h3)
  obtain ⟨⟨hv, k', hk', hb', -⟩, hf⟩ := hl
  have hwf := (Ev.valid_basic hb').1 hv
  cases l with
  | or => simp [Ev.basic?] at ht
  | and => simp [Ev.basic?] at ht
  | ivl t i => rintro v ⟨x, rfl, hx⟩; exact ivl_proper hwf hx
  | fin t v =>
    cases v with
    | none => intro v hv; simp [Ev.values] at hv
    | some s => exact absurd rfl (hf _ _)
  | nom t v =>
    cases v with
    | none => intro v hv; simp [Ev.values] at hv
    | some s => rintro v ⟨x, rfl, hx⟩; trivial

end Sppl
