import Verif.Dnf.TypedLemmas

set_option linter.all false

/-!
# Helper lemmas for `dnf_to_disjoint_union`
-/

namespace Sppl
open Classical

/-- A basic event about a plain variable is unchanged by `dnf_normalize`; it is of any kind. -/
theorem isIdLit_spec {e : Ev} (h : e.isIdLit = true) : e.IsLit ∧ ∃ k, e.basic? = some (.id k) := by
  unfold Ev.isIdLit at h
  split at h
  · rename_i t ht
    cases t <;> simp [Tr.isId] at h
    exact ⟨Ev.isLit_iff.2 ⟨_, ht⟩, _, ht⟩
  · cases h

/-- What `dnf_normalize` returns. -/
structure NormOK (c : Ctx) (e r : Ev) : Prop where
  dnf : r.IsDnf
  made : r.Made c
  nomId : r.All NomId
  vars : r.All (fun l => ∃ k ∈ e.symbols, l.basic? = some (.id k))
  holds : ∀ ω, e.Regular ω → (r.holds ω ↔ e.holds ω)

theorem vars_made {c : Ctx} {r : Ev} {A : Finset String} (hv : r.Valid) (h : r.All (fun l => ∃ k ∈ A, l.basic? = some (.id k))) :
    r.Made c ∧ r.All NomId ∧ ∀ ω, r.Regular ω := by
  have h1 : r.All NomId := h.mono (by rintro l t - ⟨k, -, hl⟩; exact nomId_of_basic hl rfl)
  refine ⟨Ev.made_all.2 ⟨hv, ((h.and' h1).and' (Ev.valid_all hv)).mono ?_⟩, h1, fun ω => Ev.regular_all.2 (h.mono ?_)⟩
  · rintro l t - ⟨⟨⟨k, -, hl⟩, h2⟩, h3⟩
    exact made_lit hl (.id k) h3 h2
  · rintro l t - ⟨k, -, hl⟩
    rw [regular_of_basic hl]; trivial

theorem dnfNormalize_ok {c : Ctx} (hc : c.Correct) {n : ℕ} {e : Ev} (hm : e.Made c) {r : Option Ev} (h : dnfNormalize c n e = .ok r) :
    (r = none → ∀ ω, e.Regular ω → ¬ e.holds ω) ∧ ∀ r', r = some r' → NormOK c e r' ∧
      ∀ ω, e.All (WK ω) → (∀ s ∈ e.symbols, ω s ≠ none) → r'.IsClause ∨ r'.Typed ω := by
  unfold dnfNormalize at h
  split at h
  · rename_i hid
    cases h
    refine ⟨by simp, fun r' e' => ?_⟩
    cases e'
    obtain ⟨h1, k, hk⟩ := isIdLit_spec hid
    have hsym : e.symbols = {k} := by rw [symbols_of_basic hk]; rfl
    have hvars : e.All (fun l => ∃ k ∈ e.symbols, l.basic? = some (.id k)) := .lit hk ⟨k, by simp [hsym], hk⟩
    have := vars_made (c := c) (Ev.Made.valid _ hm) hvars
    exact ⟨⟨h1.clause.dnf, hm, this.2.1, hvars, fun ω _ => Iff.rfl⟩, fun ω _ _ => .inl h1.clause⟩
  · obtain ⟨h1, h2⟩ := normalizeBody_ok hc hm h
    refine ⟨h1, fun r' e' => ?_⟩
    obtain ⟨h3, h4, h5, h6, -⟩ := h2 r' e'
    have := vars_made (c := c) h4 h6
    subst e'
    exact ⟨⟨h3, this.1, this.2.1, h6, h5⟩, fun ω hw hd => .inr (normalizeBody_typed hc hm h hw hd)⟩

/-! ## Overlaps -/

theorem anyEmptyInter_ok {c : Ctx} {b : Sol} (hb : ∀ q ∈ b, q.2.WF ∧ q.2.Disj) : ∀ {a : Sol}, (∀ q ∈ a, q.2.WF ∧ q.2.Disj) →
    anyEmptyInter c b a = .ok true → ∀ ω, (∀ q ∈ a, InS ω q.1 q.2) → (∀ q ∈ b, InS ω q.1 q.2) → False := by
  intro a
  induction a with
  | nil => intro _ h; simp [anyEmptyInter] at h
  | cons q a ih =>
    obtain ⟨s, A⟩ := q
    intro ha h ω h1 h2
    simp only [anyEmptyInter, bind, Except.bind] at h
    split at h; · cases h
    rename_i x hx
    split at h
    · rename_i he
      obtain ⟨v, hv, hA⟩ := h1 (s, A) (by simp)
      have hxe : x = .empty := by cases x <;> simp [SSet.isEmpty] at he; rfl
      subst hxe
      unfold interWith at hx
      cases hl : b.lookup s with
      | none => rw [hl] at hx; cases hx; simp at hA
      | some B =>
        rw [hl] at hx
        have hmem : (s, B) ∈ b := by
          clear hb h2 ih hx h1
          induction b with
          | nil => simp at hl
          | cons p b ih =>
            obtain ⟨k, C⟩ := p
            rw [List.lookup_cons] at hl
            split at hl
            · rename_i hk
              cases hl
              have := eq_of_beq hk; subst this; simp
            · exact List.mem_cons_of_mem _ (ih hl)
        obtain ⟨w, hw, hB⟩ := h2 (s, B) hmem
        have hvw : v = w := by
          have h1' : ω s = some v := hv
          have h2' : ω s = some w := hw
          rw [h1'] at h2'; exact Option.some.inj h2'
        subst hvw
        have := SSet.and_spec c.σ A B (ha (s, A) (by simp)).1 (ha (s, A) (by simp)).2 (hb _ hmem).1 (hb _ hmem).2 hx
        have := this.sup _ v.lift_proper ⟨hA, hB⟩
        simp at this
    · exact ih (fun q hq => ha q (by simp [hq])) h ω (fun q hq => h1 q (by simp [hq])) h2

theorem filterMapM_ok {α β : Type} {f : α → Res (Option β)} : ∀ {l : List α} {r : List β}, l.filterMapM f = .ok r →
    (∀ a ∈ l, ∃ o, f a = .ok o ∧ ∀ b, o = some b → b ∈ r) ∧ ∀ b ∈ r, ∃ a ∈ l, f a = .ok (some b) := by
  intro l
  induction l with
  | nil => intro r h; simp [List.filterMapM_nil, pure, Except.pure] at h; subst h; simp
  | cons a l ih =>
    intro r h
    rw [List.filterMapM_cons] at h
    simp only [bind, Except.bind] at h
    split at h; · cases h
    rename_i o ho
    cases o with
    | none =>
      simp only at h
      obtain ⟨h1, h2⟩ := ih h
      refine ⟨?_, fun b hb => ?_⟩
      · intro x hx
        rcases List.mem_cons.1 hx with rfl | hx
        · exact ⟨none, ho, by simp⟩
        · exact h1 x hx
      · obtain ⟨x, hx, hb⟩ := h2 b hb
        exact ⟨x, by simp [hx], hb⟩
    | some b =>
      simp only at h
      split at h; · cases h
      rename_i r' hr'
      simp [pure, Except.pure] at h; subst h
      obtain ⟨h1, h2⟩ := ih hr'
      refine ⟨?_, fun x hx => ?_⟩
      · intro x hx
        rcases List.mem_cons.1 hx with rfl | hx
        · exact ⟨some b, ho, by simp⟩
        · obtain ⟨o, h3, h4⟩ := h1 x hx
          exact ⟨o, h3, fun b' hb' => by simp [h4 b' hb']⟩
      · rcases List.mem_cons.1 hx with rfl | hx
        · exact ⟨a, by simp, ho⟩
        · obtain ⟨y, hy, hb⟩ := h2 x hx
          exact ⟨y, by simp [hy], hb⟩

/-- The overlaps reported: an earlier clause that is not reported is disjoint. -/
theorem nonDisjoint_ok {c : Ctx} {sols : List Sol} {ov : List (List ℕ)} (h : nonDisjoint c sols = .ok ov)
    (hwf : ∀ s ∈ sols, ∀ q ∈ s, q.2.WF ∧ q.2.Disj) :
    ov.length = sols.length ∧ ∀ i (hi : i < sols.length) (hi' : i < ov.length),
      (∀ j ∈ ov[i], j < i) ∧
      ∀ j (hj : j < i), j ∉ ov[i] → ∀ ω, (∀ q ∈ sols[j], InS ω q.1 q.2) → (∀ q ∈ sols[i], InS ω q.1 q.2) → False := by
  unfold nonDisjoint at h
  have hF := mapM_ok h
  have hlen := hF.length_eq
  simp at hlen
  refine ⟨hlen.symm, fun i hi hi' => ?_⟩
  have := hF.get (i := i) (by simpa using hi) hi'
  simp only [List.get_eq_getElem, List.getElem_zipIdx, Nat.zero_add] at this
  obtain ⟨h1, h2⟩ := filterMapM_ok this
  constructor
  · intro j hj
    obtain ⟨q, hq, hqj⟩ := h2 j hj
    have hq' := List.mem_zipIdx hq
    simp only [bind, Except.bind] at hqj
    split at hqj; · cases hqj
    split at hqj
    · cases hqj
    · cases hqj
      simp at hq'; omega
  · intro j hj hnot ω hω1 hω2
    have hjt : j < (sols.take i).length := by simp; omega
    obtain ⟨o, ho, hb⟩ := h1 ((sols.take i)[j], j) (List.mk_mem_zipIdx_iff_getElem?.2 (by simp [hj]))
    simp only [bind, Except.bind] at ho
    split at ho; · cases ho
    rename_i d hd
    cases d with
    | false => simp at ho; exact hnot (hb j ho.symm)
    | true =>
      have e1 : (sols.take i)[j] = sols[j] := List.getElem_take ..
      rw [e1] at hd
      exact anyEmptyInter_ok (hwf _ (List.getElem_mem hi)) (hwf _ (List.getElem_mem (by omega))) hd ω hω1 hω2

/-! ## The cascade of negations -/

theorem cascade_ok {c : Ctx} {es : List Ev} (hes : ∀ e ∈ es, e.Made c ∧ e.All NomId) : ∀ (js : List ℕ) {e g : Ev}, e.Made c → e.All NomId →
    cascade c es e js = .ok g → g.Made c ∧ g.All NomId ∧
    (∀ ω, g.holds ω → e.holds ω ∧ ∀ j ∈ js, ∀ f, es[j]? = some f → ¬ f.holds ω) ∧
    (∀ ω, (∀ f ∈ es, f.Typed ω) → e.holds ω → (∀ j ∈ js, ∀ f, es[j]? = some f → ¬ f.holds ω) → g.holds ω) ∧
    (∀ A : Finset String, e.symbols ⊆ A → (∀ f ∈ es, f.symbols ⊆ A) → g.symbols ⊆ A) ∧
    (∀ ω, e.Regular ω → (∀ f ∈ es, f.Regular ω) → g.Regular ω) ∧
    (∀ ω, e.All (fun l => l.Valid ∧ WK ω l) → (∀ f ∈ es, f.Typed ω) → g.All (fun l => l.Valid ∧ WK ω l)) := by
  intro js
  induction js with
  | nil =>
    intro e g he hn h
    simp [cascade, pure, Except.pure] at h; subst h
    exact ⟨he, hn, fun ω h => ⟨h, by simp⟩, fun ω _ h _ => h, fun A h _ => h, fun ω h _ => h, fun ω h _ => h⟩
  | cons j js ih =>
    intro e g he hn h
    simp only [cascade, List.foldlM_cons, bind, Except.bind] at h
    split at h; · cases h
    rename_i st hst
    split at hst; · cases hst
    rename_i f hf
    split at hst; · cases hst
    rename_i nf hnf
    have hfm : f ∈ es := List.mem_of_getElem? hf
    obtain ⟨hf1, hf2⟩ := hes f hfm
    obtain ⟨hn1, hn2⟩ := Ev.not_made hf1 hf2 hnf
    have hvf := Ev.Made.valid _ hf1
    have hst1 := Ev.land_made he hn1 hst
    have hst2 := Ev.land_nomId (Ev.Made.valid _ he) (Ev.Made.valid _ hn1) hn hn2 hst
    have hsp := (Ev.land_spec (Ev.Made.valid _ he) (Ev.Made.valid _ hn1) hst).2
    obtain ⟨r1, r2, r3, r4, r5, r6, r7⟩ := ih hst1 hst2 (by simpa [cascade, bind, Except.bind] using h)
    refine ⟨r1, r2, ?_, ?_, ?_, ?_, ?_⟩
    · intro ω hg
      obtain ⟨a1, a2⟩ := r3 ω hg
      obtain ⟨b1, b2⟩ := (hsp ω).1 a1
      refine ⟨b1, fun j' hj' f' hf' => ?_⟩
      rcases List.mem_cons.1 hj' with rfl | hj'
      · rw [hf] at hf'; cases hf'
        exact Ev.not_imp f hvf hnf b2
      · exact a2 j' hj' f' hf'
    · intro ω hT he' hjs
      refine r4 ω hT ((hsp ω).2 ⟨he', ?_⟩) (fun j' hj' => hjs j' (by simp [hj']))
      exact ((Ev.not_spec f hvf hnf).2 ω (hT f hfm)).2 (hjs j (by simp) f hf)
    · intro A hA1 hA2
      exact r5 A (Ev.land_symbols hst hA1 ((Ev.not_symbols hvf hnf).trans (hA2 f hfm))) hA2
    · intro ω h1 h2
      exact r6 ω (Ev.land_regular hst h1 (Ev.not_regular hvf hnf (h2 f hfm))) h2
    · intro ω h1 hT
      refine r7 ω (Ev.land_all wk_and h1 ?_ hst) hT
      exact not_wk hf1 hf2 (hT f hfm) hnf

/-! ## Joining disjoint disjunctions -/

/-- No two clauses hold together at `ω`. -/
def Ev.DisjAt (ω : Asg) (e : Ev) : Prop := e.disjuncts.Pairwise (fun a b => ¬ (a.holds ω ∧ b.holds ω))

theorem disjuncts_lit {e : Ev} {t : Tr} (h : e.basic? = some t) : e.disjuncts = [e] := by
  cases e <;> first | rfl | (simp [Ev.basic?] at h)

theorem Ev.lor_dnf {c : Ctx} {e f g : Ev} (hv : e.Valid) (hw : f.Valid) (he : e.IsDnf) (hf : f.IsDnf) (h : e.lor c f = .ok g) : g.IsDnf ∧
    ∀ ω, e.DisjAt ω → f.DisjAt ω → ¬ (e.holds ω ∧ f.holds ω) → g.DisjAt ω := by
  unfold Ev.lor at h
  simp only [bind, Except.bind] at h
  split at h; · cases h
  rename_i o ho
  have dj : ∀ {e : Ev}, e.IsDnf → ∀ x ∈ e.disjuncts, x.IsClause := by
    intro e he x hx
    cases e <;> simp [Ev.disjuncts] at hx <;> first | (subst hx; exact he) | exact he.2 x hx
  cases o with
  | none =>
    cases h
    refine ⟨⟨by simp [(Ev.disjuncts_valid hv).1], ?_⟩, ?_⟩
    · intro x hx
      rcases List.mem_append.1 hx with hx | hx
      · exact dj he x hx
      · exact dj hf x hx
    · intro ω h1 h2 h3
      show (e.disjuncts ++ f.disjuncts).Pairwise _
      rw [List.pairwise_append]
      refine ⟨h1, h2, fun a ha b hb hab => h3 ⟨?_, ?_⟩⟩
      · exact (Ev.disjuncts_holds e ω).1 ⟨a, ha, hab.1⟩
      · exact (Ev.disjuncts_holds f ω).1 ⟨b, hb, hab.2⟩
  | some g' =>
    cases h
    obtain ⟨t, r, h1, h2, h3, h4, h5⟩ := Ev.simplify_some ho
    refine ⟨(Ev.isLit_iff.2 ⟨t, h4⟩).clause.dnf, fun ω _ _ _ => ?_⟩
    unfold Ev.DisjAt
    rw [Option.getD_some, disjuncts_lit h4]; simp

theorem reduce_lor_dnf {c : Ctx} : ∀ (l : List Ev), (∀ e ∈ l, e.Valid ∧ e.IsDnf) → ∀ {g : Ev}, reduceM (Ev.lor c) l = .ok g →
    g.IsDnf ∧ ∀ ω, (∀ e ∈ l, e.DisjAt ω) → l.Pairwise (fun a b => ¬ (a.holds ω ∧ b.holds ω)) → g.DisjAt ω := by
  have key : ∀ (l : List Ev), (∀ e ∈ l, e.Valid ∧ e.IsDnf) → ∀ (s : Ev), s.Valid ∧ s.IsDnf → ∀ {g}, l.foldlM (Ev.lor c) s = .ok g →
      g.IsDnf ∧ ∀ ω, s.DisjAt ω → (∀ e ∈ l, e.DisjAt ω) → (s :: l).Pairwise (fun a b => ¬ (a.holds ω ∧ b.holds ω)) → g.DisjAt ω := by
    intro l
    induction l with
    | nil => intro _ s hs g h; simp [pure, Except.pure] at h; subst h; exact ⟨hs.2, fun ω h _ _ => h⟩
    | cons x l ih =>
      intro hl s hs g h
      simp only [List.foldlM_cons, bind, Except.bind] at h
      split at h; · cases h
      rename_i s' hs'
      have hx := hl x (by simp)
      obtain ⟨h1, h2⟩ := Ev.lor_spec hs.1 hx.1 hs'
      obtain ⟨h3, h4⟩ := Ev.lor_dnf hs.1 hx.1 hs.2 hx.2 hs'
      obtain ⟨h5, h6⟩ := ih (fun e he => hl e (by simp [he])) s' ⟨h1, h3⟩ h
      refine ⟨h5, fun ω a1 a2 a3 => h6 ω (h4 ω a1 (a2 x (by simp)) ?_) (fun e he => a2 e (by simp [he])) ?_⟩
      · exact (List.pairwise_cons.1 a3).1 x (by simp)
      · obtain ⟨b1, b2⟩ := List.pairwise_cons.1 a3
        obtain ⟨b3, b4⟩ := List.pairwise_cons.1 b2
        refine List.pairwise_cons.2 ⟨fun e he hh => ?_, b4⟩
        rcases (h2 ω).1 hh.1 with h | h
        · exact b1 e (by simp [he]) ⟨h, hh.2⟩
        · exact b3 e he ⟨h, hh.2⟩
  intro l hl g h
  cases l with
  | nil => simp [reduceM] at h
  | cons x l =>
    obtain ⟨h1, h2⟩ := key l (fun e he => hl e (by simp [he])) x (hl x (by simp)) h
    exact ⟨h1, fun ω a1 a2 => h2 ω (a1 x (by simp)) (fun e he => a1 e (by simp [he])) a2⟩

theorem forall₂_pairwise {α β : Type} {R : α → β → Prop} {S : α → α → Prop} {S' : β → β → Prop}
    (hS : ∀ a a' b b', R a b → R a' b' → S a a' → S' b b') : ∀ {l : List α} {r : List β}, List.Forall₂ R l r → l.Pairwise S → r.Pairwise S' := by
  intro l r h
  induction h with
  | nil => intro _; exact .nil
  | @cons a b l r h1 h2 ih =>
    intro hp
    obtain ⟨p1, p2⟩ := List.pairwise_cons.1 hp
    refine List.pairwise_cons.2 ⟨fun b' hb' => ?_, ih p2⟩
    obtain ⟨a', ha', hr⟩ := forall₂_mem_right h2 hb'
    exact hS _ _ _ _ h1 hr (p1 a' ha')

/-- Typed events have all their variables defined. -/
theorem typed_defined {c : Ctx} {ω : Asg} {e : Ev} (hm : e.Made c) (hn : e.All NomId) (hT : e.Typed ω) : ∀ s ∈ e.symbols, ω s ≠ none := by
  have : e.All (fun l => l.symbols ⊆ e.symbols.filter (fun s => ω s ≠ none)) := by
    refine ((((Ev.made_all.1 hm).2.and' hn).and' (Ev.typed_all.1 hT)).and' ((Ev.symbols_all (A := e.symbols)).1 (le_refl _))).mono ?_
    rintro l t ht ⟨⟨⟨h1, h2⟩, h3⟩, h4⟩
    obtain ⟨h5, h6⟩ := typed_kind ht h1 h2 h3
    intro s hs
    refine Finset.mem_filter.2 ⟨h4 hs, ?_⟩
    rw [symbols_of_basic ht] at hs
    cases hk : l.isNom with
    | false => obtain ⟨x, hx⟩ := h5 hk s hs; simp [hx]
    | true =>
      obtain ⟨k, x, rfl, hx⟩ := h6 hk
      simp [Tr.symbols] at hs; subst hs; simp [hx]
  intro s hs
  exact (Finset.mem_filter.1 (Ev.symbols_all.2 this hs)).2

/-! ## `dnf_to_disjoint_union` -/

/-- What `dnf_to_disjoint_union` returns. -/
structure DisjOK (c : Ctx) (e g : Ev) : Prop where
  dnf : g.IsDnf
  made : g.Made c
  nomId : g.All NomId
  symbols : g.symbols ⊆ e.symbols
  regular : ∀ ω, e.Regular ω → g.Regular ω
  disj : ∀ ω, e.Regular ω → g.DisjAt ω
  sound : ∀ ω, e.Regular ω → g.holds ω → e.holds ω
  complete : ∀ ω, e.Regular ω → (e.IsClause ∨ e.Typed ω) → e.holds ω → g.holds ω

theorem toDisjoint_ok {c : Ctx} (hc : c.Correct) {n : ℕ} : ∀ (d : ℕ) {e g : Ev}, e.IsDnf → e.Made c → e.All NomId →
    toDisjoint c n d e = .ok g → DisjOK c e g := by
  intro d
  induction d with
  | zero => intro e g _ _ _ h; simp [toDisjoint] at h
  | succ d ih =>
    intro e g hd hm hn h
    have triv : (∀ ω, e.DisjAt ω) → DisjOK c e e := fun hdj => ⟨hd, hm, hn, le_refl _, fun ω h => h, fun ω _ => hdj ω, fun ω _ h => h, fun ω _ _ h => h⟩
    cases e with
    | ivl => simp [toDisjoint] at h; subst h; exact triv (fun ω => by simp [Ev.DisjAt, Ev.disjuncts])
    | fin => simp [toDisjoint] at h; subst h; exact triv (fun ω => by simp [Ev.DisjAt, Ev.disjuncts])
    | nom => simp [toDisjoint] at h; subst h; exact triv (fun ω => by simp [Ev.DisjAt, Ev.disjuncts])
    | and => simp [toDisjoint] at h; subst h; exact triv (fun ω => by simp [Ev.DisjAt, Ev.disjuncts])
    | or es =>
      clear triv
      simp only [toDisjoint, bind, Except.bind] at h
      split at h; · cases h
      rename_i fs hfs
      split at h; · cases h
      rename_i sols hsols
      split at h; · cases h
      rename_i ov hov
      obtain ⟨-, hF⟩ := factor_solve hc hm hfs hsols
      have hlen := hF.length_eq
      simp only [Ev.disjuncts] at hF hlen
      have hwf : ∀ s ∈ sols, ∀ q ∈ s, q.2.WF ∧ q.2.Disj := by
        intro s hs
        obtain ⟨x, -, hx⟩ := forall₂_mem_right hF hs
        exact hx.wf
      obtain ⟨hol, hov'⟩ := nonDisjoint_ok hov hwf
      have hes : ∀ e ∈ es, e.Made c ∧ e.All NomId := by
        intro e he
        have h1 := Ev.made_all.1 hm
        refine ⟨Ev.made_all.2 ⟨?_, Ev.all_or.1 h1.2 e he⟩, Ev.all_or.1 hn e he⟩
        cases h1.1 with
        | or _ hv => exact hv e he
      have hreg : ∀ ω, (Ev.or es).Regular ω → ∀ f ∈ es, f.Regular ω := by
        intro ω hr f hf
        exact Ev.regular_all.2 (Ev.all_or.1 (Ev.regular_all.1 hr) f hf)
      have htyp : ∀ ω, (Ev.or es).Typed ω → ∀ f ∈ es, f.Typed ω := by
        intro ω hr f hf
        exact Ev.typed_all.2 (Ev.all_or.1 (Ev.typed_all.1 hr) f hf)
      have hsol : ∀ i (hi : i < es.length) (hi' : i < sols.length), ∀ ω, (Ev.or es).Regular ω →
          ((∀ q ∈ sols[i], InS ω q.1 q.2) ↔ es[i].holds ω) := by
        intro i hi hi' ω hr
        exact (hF.get hi hi').holds ω hr
      -- clauses that are not reported as overlapping are disjoint
      have hdis : ∀ ω, (Ev.or es).Regular ω → ∀ i j (hi : i < es.length) (hj : j < i) (hi' : i < ov.length), j ∉ ov[i] →
          ¬ (es[j].holds ω ∧ es[i].holds ω) := by
        intro ω hr i j hi hj hi' hnot hh
        exact (hov' i (by omega) hi').2 j hj hnot ω ((hsol j (by omega) (by omega) ω hr).2 hh.1) ((hsol i hi (by omega) ω hr).2 hh.2)
      split at h
      · rename_i hall
        cases h
        refine ⟨hd, hm, hn, le_refl _, fun ω h => h, fun ω hr => ?_, fun ω _ h => h, fun ω _ _ h => h⟩
        unfold Ev.DisjAt
        simp only [Ev.disjuncts]
        rw [List.pairwise_iff_getElem]
        intro i j hi hj hij
        refine hdis ω hr j i hj hij (by omega) ?_
        have := List.all_eq_true.1 hall ov[j] (List.getElem_mem (by omega))
        simp at this
        simp [this]
      · split at h; · cases h
        rename_i cl hcl
        split at h; · cases h
        rename_i norm hnorm
        split at h; · cases h
        rename_i ss hss
        have hC := mapM_ok hcl
        have hN := mapM_ok hnorm
        have hS := mapM_ok hss
        have hcl_len : cl.length = es.length := by
          have := hC.length_eq
          simp at this; omega
        have hcas : ∀ i (hi : i < es.length) (hi' : i < ov.length) (hi'' : i < cl.length), cascade c es es[i] ov[i] = .ok cl[i] := by
          intro i hi hi' hi''
          have := hC.get (i := i) (by simp; omega) hi''
          simpa using this
        -- facts about each cascade
        have hfact : ∀ x ∈ cl, x.Made c ∧ x.All NomId ∧ x.symbols ⊆ (Ev.or es).symbols ∧ (∀ ω, (Ev.or es).Regular ω → x.Regular ω) ∧
            (∀ ω, x.holds ω → (Ev.or es).holds ω) := by
          intro x hx
          obtain ⟨p, hp, hpx⟩ := forall₂_mem_right hC hx
          obtain ⟨e, js⟩ := p
          have he := (List.of_mem_zip hp).1
          obtain ⟨h1, h2, h3, -, h5, h6, -⟩ := cascade_ok hes js (hes e he).1 (hes e he).2 hpx
          have hsub : ∀ f ∈ es, f.symbols ⊆ (Ev.or es).symbols := by
            intro f hf
            exact Ev.symbols_all.2 (Ev.all_or.1 (Ev.symbols_all.1 (le_refl _)) f hf)
          exact ⟨h1, h2, h5 _ (hsub e he) hsub, fun ω hr => h6 ω (hreg ω hr e he) (hreg ω hr), fun ω hx =>
            (Ev.holds_or ω es).2 ⟨e, he, (h3 ω hx).1⟩⟩
        have hnf : ∀ r ∈ norm.filterMap id, ∃ x ∈ cl, dnfNormalize c n x = .ok (some r) := by
          intro r hr
          obtain ⟨o, ho, hor⟩ := List.mem_filterMap.1 hr
          simp at hor; subst hor
          obtain ⟨x, hx, hxo⟩ := forall₂_mem_right hN ho
          exact ⟨x, hx, hxo⟩
        have hrec : ∀ s ∈ ss, ∃ r ∈ norm.filterMap id, ∃ x ∈ cl, NormOK c x r ∧ DisjOK c r s := by
          intro s hs
          obtain ⟨r, hr, hrs⟩ := forall₂_mem_right hS hs
          obtain ⟨x, hx, hxr⟩ := hnf r hr
          have hno := ((dnfNormalize_ok hc (hfact x hx).1 hxr).2 r rfl).1
          exact ⟨r, hr, x, hx, hno, ih hno.dnf hno.made hno.nomId hrs⟩
        have hsv : ∀ s ∈ ss, s.Valid ∧ s.IsDnf := by
          intro s hs
          obtain ⟨r, hr, x, hx, h1, h2⟩ := hrec s hs
          exact ⟨Ev.Made.valid _ h2.made, h2.dnf⟩
        have hg := reduce_lor (fun s hs => (hsv s hs).1) h
        obtain ⟨hg1, hg2⟩ := reduce_lor_dnf ss hsv h
        have hrr : ∀ {x r : Ev}, NormOK c x r → ∀ ω, r.Regular ω := fun {x r} h1 => (vars_made (c := c) (Ev.Made.valid _ h1.made) h1.vars).2.2
        refine ⟨hg1, ?_, ?_, ?_, ?_, ?_, ?_, ?_⟩
        · exact reduceM_ind (Q := fun x => x.Made c) (fun x y z => Ev.lor_made)
            (fun s hs => (hrec s hs).elim (fun r hr => by obtain ⟨-, x, -, -, h2⟩ := hr; exact h2.made)) h
        · have : ∀ s ∈ ss, s.Valid ∧ s.All NomId := fun s hs => by
            obtain ⟨r, -, x, -, -, h2⟩ := hrec s hs; exact ⟨Ev.Made.valid _ h2.made, h2.nomId⟩
          exact (reduceM_ind (Q := fun x => x.Valid ∧ x.All NomId) (fun x y z hx hy hz =>
            ⟨(Ev.lor_spec hx.1 hy.1 hz).1, Ev.lor_nomId hx.1 hy.1 hx.2 hy.2 hz⟩) this h).2
        · refine reduceM_ind (Q := fun x => x.symbols ⊆ (Ev.or es).symbols) (fun x y z hx hy hz => Ev.lor_symbols hz hx hy) ?_ h
          intro s hs
          obtain ⟨r, -, x, hx, h1, h2⟩ := hrec s hs
          refine h2.symbols.trans (subset_trans ?_ (hfact x hx).2.2.1)
          rw [Ev.symbols_all]
          refine h1.vars.mono ?_
          rintro l t - ⟨k, hk, hl⟩
          rw [symbols_of_basic hl]; simpa [Tr.symbols] using hk
        · intro ω hr
          refine reduceM_ind (Q := fun x => x.Regular ω) (fun x y z hx hy hz => Ev.lor_regular hz hx hy) ?_ h
          intro s hs
          obtain ⟨r, -, x, hx, h1, h2⟩ := hrec s hs
          exact h2.regular ω (hrr h1 ω)
        · -- disjointness
          intro ω hr
          refine hg2 ω (fun s hs => ?_) ?_
          · obtain ⟨r, -, x, hx, h1, h2⟩ := hrec s hs
            exact h2.disj ω (hrr h1 ω)
          · have p1 : cl.Pairwise (fun a b => ¬ (a.holds ω ∧ b.holds ω)) := by
              rw [List.pairwise_iff_getElem]
              rintro i j hi hj hij ⟨h1, h2⟩
              obtain ⟨-, -, a1, -⟩ := cascade_ok hes _ (hes _ (List.getElem_mem (by omega))).1 (hes _ (List.getElem_mem (by omega))).2
                (hcas i (by omega) (by omega) hi)
              obtain ⟨-, -, a2, -⟩ := cascade_ok hes _ (hes _ (List.getElem_mem (by omega))).1 (hes _ (List.getElem_mem (by omega))).2
                (hcas j (by omega) (by omega) hj)
              obtain ⟨b1, -⟩ := a1 ω h1
              obtain ⟨b2, b3⟩ := a2 ω h2
              by_cases hmem : i ∈ ov[j]'(by omega)
              · exact b3 i hmem _ (List.getElem?_eq_getElem (by omega)) b1
              · exact hdis ω hr j i (by omega) hij (by omega) hmem ⟨b1, b2⟩
            have p2 : norm.Pairwise (fun a b => ∀ a' b', a = some a' → b = some b' → ¬ (a'.holds ω ∧ b'.holds ω)) := by
              have hN' : List.Forall₂ (fun x o => ∀ r, o = some r → r.holds ω → x.holds ω) cl norm := by
                rw [List.forall₂_iff_get] at hN ⊢
                refine ⟨hN.1, fun i hi hi' r hr' hh => ?_⟩
                have := hN.2 i hi hi'
                have hf := hfact _ (List.getElem_mem hi)
                exact (((dnfNormalize_ok hc hf.1 this).2 r hr').1.holds ω (hf.2.2.2.1 ω hr)).1 hh
              refine forall₂_pairwise ?_ hN' p1
              intro a a' b b' hab hab' hS x y hx hy hh
              exact hS ⟨hab x hx hh.1, hab' y hy hh.2⟩
            have p3 : (norm.filterMap id).Pairwise (fun a b => ¬ (a.holds ω ∧ b.holds ω)) := by
              rw [List.pairwise_filterMap]
              refine p2.imp ?_
              intro a b hab x hx y hy
              exact hab x y (by simpa using hx) (by simpa using hy)
            have hS' : List.Forall₂ (fun r s => s.holds ω → r.holds ω) (norm.filterMap id) ss := by
              rw [List.forall₂_iff_get] at hS ⊢
              refine ⟨hS.1, fun i hi hi' hh => ?_⟩
              have hi2 := hS.2 i hi hi'
              obtain ⟨x, hx, hxr⟩ := hnf _ (List.getElem_mem hi)
              have hno := ((dnfNormalize_ok hc (hfact x hx).1 hxr).2 _ rfl).1
              exact (ih hno.dnf hno.made hno.nomId hi2).sound ω (hrr hno ω) hh
            refine forall₂_pairwise ?_ hS' p3
            intro a a' b b' hab hab' hS hh
            exact hS ⟨hab hh.1, hab' hh.2⟩
        · intro ω hr hh
          obtain ⟨s, hs, hsh⟩ := (hg.2 ω).1 hh
          obtain ⟨r, -, x, hx, h1, h2⟩ := hrec s hs
          exact (hfact x hx).2.2.2.2 ω ((h1.holds ω ((hfact x hx).2.2.2.1 ω hr)).1 (h2.sound ω (hrr h1 ω) hsh))
        · rintro ω hr (hcl' | hT) hh
          · exact False.elim hcl'
          -- the first clause that holds
          have hex : ∃ i, ∃ hi : i < es.length, es[i].holds ω := by
            obtain ⟨f, hf, hfh⟩ := (Ev.holds_or ω es).1 hh
            obtain ⟨i, hi, rfl⟩ := List.mem_iff_getElem.1 hf
            exact ⟨i, hi, hfh⟩
          obtain ⟨hi, hih⟩ := Nat.find_spec hex
          have hmin : ∀ j, j < Nat.find hex → ∀ hj : j < es.length, ¬ es[j].holds ω := fun j hj hj' hh => Nat.find_min hex hj ⟨hj', hh⟩
          generalize Nat.find hex = i at hi hih hmin
          have hei : es[i] ∈ es := List.getElem_mem hi
          have hcl_i : i < cl.length := by omega
          obtain ⟨c1, c2, -, c4, c5, c6, c7⟩ := cascade_ok hes _ (hes _ hei).1 (hes _ hei).2 (hcas i hi (by omega) (by omega))
          have hxm : cl[i] ∈ cl := List.getElem_mem hcl_i
          have hxh : cl[i].holds ω := by
            refine c4 ω (htyp ω hT) hih ?_
            intro j hj f hf
            obtain ⟨hj', rfl⟩ := List.getElem?_eq_some_iff.1 hf
            exact hmin j ((hov' i (by omega) (by omega)).1 j hj) hj'
          have hxr := (hfact _ hxm).2.2.2.1 ω hr
          have hwk := c7 ω (typed_wk (hes _ hei).1 (hes _ hei).2 (htyp ω hT _ hei)) (htyp ω hT)
          have hdef : ∀ s ∈ cl[i].symbols, ω s ≠ none := fun s hs => typed_defined hm hn hT s ((hfact _ hxm).2.2.1 hs)
          obtain ⟨o, ho, hxo⟩ := forall₂_mem_left hN hxm
          obtain ⟨d1, d2⟩ := dnfNormalize_ok hc (hfact _ hxm).1 hxo
          cases o with
          | none => exact absurd hxh (d1 rfl ω hxr)
          | some r =>
            obtain ⟨d3, d4⟩ := d2 r rfl
            have hrm : r ∈ norm.filterMap id := List.mem_filterMap.2 ⟨some r, ho, rfl⟩
            obtain ⟨s, hs, hrs⟩ := forall₂_mem_left hS hrm
            have hD := ih d3.dnf d3.made d3.nomId hrs
            refine (hg.2 ω).2 ⟨s, hs, hD.complete ω (hrr d3 ω) (d4 ω (hwk.mono (fun l t _ h => h.2)) hdef) ?_⟩
            exact (d3.holds ω hxr).2 hxh

end Sppl
