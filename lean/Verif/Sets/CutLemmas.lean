import Verif.Sets.CutSpec
import Verif.Sets.TotalLemmas
import Verif.Sets.InvertLemmas
import Verif.Sets.EndsLemmas

set_option linter.all false

/-!
# The operations on sets are total and closed on sets that end consistently (helper lemmas)
-/

namespace Sppl
variable {E : Type} [LinearOrder E] [BoundedOrder E] {κ : Cuts E}

/-- Well-formed sets that end at cuts. -/
structure SSet.Tidy (κ : Cuts E) (s : SSet E) : Prop where
  wf : s.WF
  disj : s.Disj
  cut : s.Cut κ

theorem SSet.Tidy.empty : (SSet.empty : SSet E).Tidy κ := ⟨trivial, trivial, trivial⟩
theorem SSet.Tidy.pc {p : Piece E} (hw : p.WF) (hc : p.Cut κ) : (SSet.pc p).Tidy κ := ⟨hw, trivial, hc⟩

theorem mkIvl_id {a b : E} {lo ro : Bool} (h : a < b) (h1 : a = ⊥ → lo = true) (h2 : b = ⊤ → ro = true) : mkIvl a b lo ro = .ok ⟨a, b, lo, ro⟩ := by
  rw [mkIvl_eq h]
  by_cases e1 : a = ⊥ <;> by_cases e2 : b = ⊤ <;> simp_all

theorem Ivl.and_cut {i j : Ivl E} (hi : i.WF) (hj : j.WF) (ci : i.Cut κ) (cj : j.Cut κ) : ∃ r, Ivl.and i j = .ok r ∧ (r = .empty ∨ ∃ k, r = .pc (.ivl k) ∧ k.WF ∧ k.Cut κ) := by
  obtain ⟨r, hr, hw, -⟩ := Ivl.and_spec i j hi hj
  refine ⟨r, hr, ?_⟩
  obtain ⟨a, b, lo, ro⟩ := i
  obtain ⟨c, d, lo', ro'⟩ := j
  obtain ⟨hi1, hi2, hi3⟩ := hi
  obtain ⟨hj1, hj2, hj3⟩ := hj
  obtain ⟨ci1, ci2⟩ := ci
  obtain ⟨cj1, cj2⟩ := cj
  simp only at hi1 hi2 hi3 hj1 hj2 hj3 ci1 ci2 cj1 cj2
  have nb : ∀ {x y : E}, x < y → y ≠ ⊥ := fun h e => by subst e; exact not_lt_bot h
  have nt : ∀ {x y : E}, x < y → x ≠ ⊤ := fun h e => by subst e; exact not_top_lt h
  unfold Ivl.and at hr
  simp only [Ivl.mk.injEq] at hr
  have fin : ∀ {x y : E} {l r' : Bool} {k : Ivl E}, mkIvl x y l r' = .ok k → (x = ⊥ → l = true) → (y = ⊤ → r' = true) → (x ≠ ⊥ → κ x = some l) → (y ≠ ⊤ → κ y = some (!r')) →
      k.WF ∧ k.Cut κ := by
    intro x y l r' k h h1 h2 h3 h4
    have hlt := (mkIvl_ok h).1
    rw [mkIvl_id hlt h1 h2] at h
    cases h
    exact ⟨⟨hlt, h1, h2⟩, h3, h4⟩
  split_ifs at hr with h1 h2 h3 h4 h5 h6 h7 h8 h9 h10
  · cases hr; exact .inr ⟨_, rfl, ⟨hj1, hj2, hj3⟩, cj1, cj2⟩
  · cases hr; exact .inr ⟨_, rfl, ⟨hj1, hj2, hj3⟩, cj1, cj2⟩
  · cases hr; exact .inr ⟨_, rfl, ⟨hi1, hi2, hi3⟩, ci1, ci2⟩
  · exfalso
    simp only [Ivl.has_iff, Ivl.Mem] at h4 h6
    have e1 := ci2 (by rw [h5]; exact nt hj1)
    have e2 := cj1 (by rw [← h5]; exact nb hi1)
    rw [h5, e2] at e1
    clear hw hr fin nb nt ci1 ci2 cj1 cj2 h1 h2 h3
    cases lo' <;> cases ro <;> simp_all
  · cases hr; exact .inl rfl
  · simp only [bind, Except.bind] at hr
    split at hr; · cases hr
    rename_i k hk
    cases hr
    obtain ⟨f1, f2⟩ := fin hk hj2 hi3 cj1 ci2
    exact .inr ⟨_, rfl, f1, f2⟩
  · exfalso
    simp only [Ivl.has_iff, Ivl.Mem] at h7 h9
    have e1 := ci1 (by rw [h8]; exact nb hj1)
    have e2 := cj2 (by rw [← h8]; exact nt hi1)
    rw [h8, e2] at e1
    clear hw hr fin nb nt ci1 ci2 cj1 cj2 h1 h2 h3
    cases lo <;> cases ro' <;> simp_all
  · cases hr; exact .inl rfl
  · simp only [bind, Except.bind] at hr
    split at hr; · cases hr
    rename_i k hk
    cases hr
    obtain ⟨f1, f2⟩ := fin hk hi2 hj3 ci1 cj2
    exact .inr ⟨_, rfl, f1, f2⟩
  · simp only [bind, Except.bind] at hr
    split at hr; · cases hr
    rename_i k hk
    cases hr
    obtain ⟨f1, f2⟩ := fin hk (fun h => by simp [hi2 h]) hi3 (fun h => by
      have e1 := ci1 h
      have e2 := cj1 (by rw [← h10]; exact h)
      rw [h10, e2] at e1
      have e3 := Option.some.inj e1
      rw [h10, e2, e3, Bool.or_self]) ci2
    exact .inr ⟨_, rfl, f1, f2⟩
  · rename_i h11
    simp only [bind, Except.bind] at hr
    split at hr; · cases hr
    rename_i k hk
    cases hr
    obtain ⟨f1, f2⟩ := fin hk hi2 (fun h => by simp [hi3 h]) ci1 (fun h => by
      have e1 := ci2 h
      have e2 := cj2 (by rw [← h11]; exact h)
      rw [h11, e2] at e1
      have e3 : ro' = ro := by simpa using e1
      rw [h11, e2, e3, Bool.or_self])
    exact .inr ⟨_, rfl, f1, f2⟩
  · cases hr; exact .inl rfl

theorem Ivl.or_cut (σ : Orders E) {i j : Ivl E} (hi : i.WF) (hj : j.WF) (ci : i.Cut κ) (cj : j.Cut κ) :
    (∃ k, Ivl.or σ i j = .ok (.pc (.ivl k)) ∧ k.WF ∧ k.Cut κ) ∨ ∃ u, Ivl.or σ i j = .ok (.un u) ∧ ∀ p ∈ u.values, p = .ivl i ∨ p = .ivl j := by
  rcases Ivl.or_spec σ i j hi hj with ⟨k, h1, h2, h3, h4, h5, h6⟩ | ⟨h1, hs⟩
  · refine .inl ⟨k, h1, h2, ?_, ?_⟩
    · intro hk
      have ha := h3 k.a
      obtain ⟨a, b, lo, ro⟩ := i
      obtain ⟨c, d, lo', ro'⟩ := j
      obtain ⟨e, f, lk, rk⟩ := k
      obtain ⟨hi1, hi2, hi3⟩ := hi
      obtain ⟨hj1, hj2, hj3⟩ := hj
      obtain ⟨ci1, ci2⟩ := ci
      obtain ⟨cj1, cj2⟩ := cj
      obtain ⟨hk1, hk2, hk3⟩ := h2
      simp only [Ivl.Mem] at *
      rcases lt_trichotomy a c with h | h | h
      · rw [min_eq_left h.le] at h5; subst h5
        rw [ci1 hk]
        cases lo <;> cases lk <;> grind
      · subst h; rw [min_self] at h5; subst h5
        have := ci1 hk
        have h' := cj1 hk
        rw [this] at h' ⊢
        cases lo <;> cases lo' <;> cases lk <;> grind
      · rw [min_eq_right h.le] at h5; subst h5
        rw [cj1 hk]
        cases lo' <;> cases lk <;> grind
    · intro hk
      have ha := h3 k.b
      obtain ⟨a, b, lo, ro⟩ := i
      obtain ⟨c, d, lo', ro'⟩ := j
      obtain ⟨e, f, lk, rk⟩ := k
      obtain ⟨hi1, hi2, hi3⟩ := hi
      obtain ⟨hj1, hj2, hj3⟩ := hj
      obtain ⟨ci1, ci2⟩ := ci
      obtain ⟨cj1, cj2⟩ := cj
      obtain ⟨hk1, hk2, hk3⟩ := h2
      simp only [Ivl.Mem] at *
      rcases lt_trichotomy b d with h | h | h
      · rw [max_eq_right h.le] at h6; subst h6
        rw [cj2 hk]
        cases ro' <;> cases rk <;> grind
      · subst h; rw [max_self] at h6; subst h6
        have := ci2 hk
        have h' := cj2 hk
        rw [this] at h' ⊢
        cases ro <;> cases ro' <;> cases rk <;> grind
      · rw [max_eq_left h.le] at h6; subst h6
        rw [ci2 hk]
        cases ro <;> cases rk <;> grind
  · right
    obtain ⟨u, hu⟩ := mkUnion_total (σ := σ) (vs := [.pc (.ivl i), .pc (.ivl j)])
      (by simp) (by simp [List.filterMap]) (by simp [List.filterMap])
      ⟨.ivl i, .ivl j, by
        intro h; cases h; have := hi.1; unfold Ivl.Sep at hs; grind, by simp, by simp⟩
    refine ⟨u, by rw [h1, hu], ?_⟩
    obtain ⟨w, e, hm, -⟩ := mkUnion_ok hu
    cases e
    intro p hp
    have := (hm p).1 hp
    simpa using this

theorem unionIntervalsLoop_cut (σ : Orders E) (rest : List (Ivl E)) : ∀ (acc : List (Ivl E)) (last : Ivl E) {bs}, (∀ i ∈ acc, i.WF ∧ i.Cut κ) → (last.WF ∧ last.Cut κ) →
    (∀ i ∈ rest, i.WF ∧ i.Cut κ) → unionIntervalsLoop σ acc last rest = .ok bs → ∀ i ∈ bs, i.Cut κ := by
  induction rest with
  | nil =>
    intro acc last bs h1 h2 _ h i hi
    simp only [unionIntervalsLoop] at h
    cases h
    rw [List.mem_reverse, List.mem_cons] at hi
    rcases hi with rfl | hi
    · exact h2.2
    · exact (h1 i hi).2
  | cons j rest ih =>
    intro acc last bs h1 h2 h3 h
    unfold unionIntervalsLoop at h
    have hj := h3 j (by simp)
    rcases Ivl.or_cut σ h2.1 hj.1 h2.2 hj.2 with ⟨k, e, hk⟩ | ⟨u, e, -⟩
    · simp only [e, bind, Except.bind] at h
      exact ih acc k h1 hk (fun i hi => h3 i (by simp [hi])) h
    · simp only [e, bind, Except.bind] at h
      refine ih (last :: acc) j ?_ hj (fun i hi => h3 i (by simp [hi])) h
      intro i hi
      rcases List.mem_cons.1 hi with rfl | hi
      · exact h2
      · exact h1 i hi

theorem unionIntervals_cut (σ : Orders E) {l bs : List (Ivl E)} (hl : ∀ i ∈ l, i.WF ∧ i.Cut κ) (h : unionIntervals σ l = .ok bs) : ∀ i ∈ bs, i.Cut κ := by
  unfold unionIntervals at h
  have hp := List.perm_insertionSort (fun i j : Ivl E => i.a ≤ j.a) l
  split at h
  · cases h
  · rename_i i rest hm
    have hw : ∀ j ∈ i :: rest, j.WF ∧ j.Cut κ := fun j hj => hl j (hp.mem_iff.1 (by rw [hm]; exact hj))
    exact unionIntervalsLoop_cut σ rest [] i (by simp) (hw i (by simp)) (fun j hj => hw j (by simp [hj])) h

theorem mkUnion_cut {σ : Orders E} {vs : List (SSet E)} {r : SSet E} (h : mkUnion σ vs = .ok r) (hv : ∀ p, .pc p ∈ vs → p.Cut κ) : r.Cut κ := by
  obtain ⟨w, e, hm, -⟩ := mkUnion_ok h
  subst e
  intro p hp
  exact hv p ((hm p).1 hp)

theorem SSet.Cut.atoms {u : Un E} (hu : u.WF) (hc : (SSet.un u).Cut κ) : u.atoms = none := by
  cases h : u.atoms with
  | none => rfl
  | some s => exact (hc (.fin s) ((hu.mem_values _).2 (.inr (.inl ⟨s, h, rfl⟩)))).elim

theorem SSet.Cut.ivl {u : Un E} (hu : u.WF) (hc : (SSet.un u).Cut κ) {i : Ivl E} (hi : i ∈ u.intervals) : i.Cut κ :=
  hc (.ivl i) ((hu.mem_values _).2 (.inr (.inr ⟨i, hi, rfl⟩)))

theorem finishBlocks_cut {σ : Orders E} {n : Option Nom} {bs : List (Piece E)} {r : SSet E} (h : finishBlocks σ n bs = .ok r) (hb : ∀ p ∈ bs, p.Cut κ) : r.Cut κ := by
  unfold finishBlocks at h
  split at h
  · cases h
  · cases h; exact hb _ (by simp)
  · refine mkUnion_cut h ?_
    intro p hp
    rcases List.mem_cons.1 hp with hp | hp
    · cases n with
      | none => cases hp
      | some m => cases hp; trivial
    · rw [List.mem_map] at hp
      obtain ⟨q, hq, e⟩ := hp
      cases e
      exact hb _ hq

theorem Un.orPiece_tidy (σ : Orders E) {u : Un E} (hu : (SSet.un u).Tidy κ) {p : Piece E} (hp : p.WF) (hc : p.Cut κ) : ∃ r, u.orPiece σ p = .ok r ∧ r.Tidy κ := by
  cases p with
  | fin s => exact hc.elim
  | nom n =>
    obtain ⟨r, h1, h2⟩ := Un.orPiece_nom σ u hu.wf hu.disj n hp
    refine ⟨r, h1, h2.wf, h2.disj, ?_⟩
    simp only [Un.orPiece, bind, Except.bind] at h1
    split at h1; · cases h1
    refine mkUnion_cut h1 ?_
    intro p hp
    rcases List.mem_cons.1 hp with hp | hp
    · cases hp; trivial
    rcases List.mem_cons.1 hp with hp | hp
    · rw [hu.cut.atoms hu.wf] at hp; cases hp
    · rw [List.mem_map] at hp
      obtain ⟨i, hi, e⟩ := hp
      cases e
      exact hu.cut.ivl hu.wf hi
  | ivl i =>
    obtain ⟨r, h1, h2⟩ := Un.orPiece_ivl σ u hu.wf i hp
    refine ⟨r, h1, h2.wf, h2.disj, ?_⟩
    simp only [Un.orPiece, hu.cut.atoms hu.wf, unionIntervalsFinite, bind, Except.bind] at h1
    split at h1; · cases h1
    rename_i bs hbs
    split at hbs; · cases hbs
    rename_i l hl
    cases hbs
    refine finishBlocks_cut h1 ?_
    intro p hp
    rw [List.mem_map] at hp
    obtain ⟨j, hj, rfl⟩ := hp
    refine unionIntervals_cut σ ?_ hl j hj
    intro k hk
    rw [List.mem_append, List.mem_singleton] at hk
    rcases hk with hk | rfl
    · exact ⟨hu.wf.ivl_wf hk, hu.cut.ivl hu.wf hk⟩
    · exact ⟨hp, hc⟩

theorem Piece.or_tidy (σ : Orders E) {p q : Piece E} (hp : p.WF) (cp : p.Cut κ) (hq : q.WF) (cq : q.Cut κ) : ∃ r, Piece.or σ p q = .ok r ∧ r.Tidy κ := by
  obtain ⟨r, h1, h2⟩ := Piece.or_spec σ p q hp hq
  refine ⟨r, h1, h2.wf, h2.disj, ?_⟩
  have two : ∀ {a b : Piece E}, a.Cut κ → b.Cut κ → mkUnion σ [.pc a, .pc b] = .ok r → r.Cut κ := by
    intro a b ha hb h
    refine mkUnion_cut h ?_
    intro p hp
    simp only [List.mem_cons, SSet.pc.injEq, List.not_mem_nil, or_false] at hp
    rcases hp with rfl | rfl
    · exact ha
    · exact hb
  cases p with
  | fin s => exact cp.elim
  | nom n =>
    cases q with
    | fin s => exact cq.elim
    | nom m =>
      simp only [Piece.or, bind, Except.bind] at h1
      split at h1; · cases h1
      cases h1; trivial
    | ivl i => exact two cp cq h1
  | ivl i =>
    cases q with
    | fin s => exact cq.elim
    | nom m => exact two cq cp h1
    | ivl j =>
      rcases Ivl.or_cut σ hp hq cp cq with ⟨k, e, -, hk⟩ | ⟨u, e, hu⟩
      · rw [Piece.or, e] at h1; cases h1; exact hk
      · rw [Piece.or, e] at h1; cases h1
        intro x hx
        rcases hu x hx with rfl | rfl
        · exact cp
        · exact cq

theorem SSet.orPiece_tidy (σ : Orders E) {s : SSet E} (hs : s.Tidy κ) {p : Piece E} (hp : p.WF) (hc : p.Cut κ) : ∃ r, s.orPiece σ p = .ok r ∧ r.Tidy κ := by
  cases s with
  | empty => exact ⟨_, rfl, .pc hp hc⟩
  | pc q => exact Piece.or_tidy σ hs.wf hs.cut hp hc
  | un u => exact Un.orPiece_tidy σ hs hp hc

theorem SSet.or_tidy (σ : Orders E) {s t : SSet E} (hs : s.Tidy κ) (ht : t.Tidy κ) : ∃ r, SSet.or σ s t = .ok r ∧ r.Tidy κ := by
  cases s with
  | empty => exact ⟨t, by cases t <;> rfl, ht⟩
  | pc p =>
    cases t with
    | empty => exact ⟨_, rfl, hs⟩
    | pc q => exact Piece.or_tidy σ hs.wf hs.cut ht.wf ht.cut
    | un u => exact Un.orPiece_tidy σ ht hs.wf hs.cut
  | un u =>
    cases t with
    | empty => exact ⟨_, rfl, hs⟩
    | pc q => exact Un.orPiece_tidy σ hs ht.wf ht.cut
    | un v =>
      have : ∀ (l : List (Piece E)) (s : SSet E), s.Tidy κ → (∀ p ∈ l, p.WF ∧ p.Cut κ) → ∃ r, l.foldlM (fun s p => s.orPiece σ p) s = .ok r ∧ r.Tidy κ := by
        intro l
        induction l with
        | nil => intro s hs _; exact ⟨s, rfl, hs⟩
        | cons p l ih =>
          intro s hs hl
          obtain ⟨r, h1, h2⟩ := SSet.orPiece_tidy σ hs (hl p (by simp)).1 (hl p (by simp)).2
          obtain ⟨r', h3, h4⟩ := ih r h2 (fun q hq => hl q (by simp [hq]))
          exact ⟨r', by simp only [List.foldlM_cons, h1, bind, Except.bind]; exact h3, h4⟩
      exact this v.values _ hs (fun p hp => ⟨ht.wf.pieces p hp, ht.cut p hp⟩)

theorem reduceM_total {β : Type} {f : β → β → Res β} {P : β → Prop} (hf : ∀ a b, P a → P b → ∃ r, f a b = .ok r ∧ P r) {l : List β} (hne : l ≠ []) (hl : ∀ x ∈ l, P x) :
    ∃ r, reduceM f l = .ok r ∧ P r := by
  match l, hne, hl with
  | a :: l, _, hl =>
    have : ∀ (l : List β) (a : β), P a → (∀ x ∈ l, P x) → ∃ r, l.foldlM f a = .ok r ∧ P r := by
      intro l
      induction l with
      | nil => intro a ha _; exact ⟨a, rfl, ha⟩
      | cons b l ih =>
        intro a ha hl
        obtain ⟨r, h1, h2⟩ := hf a b ha (hl b (by simp))
        obtain ⟨r', h3, h4⟩ := ih r h2 (fun x hx => hl x (by simp [hx]))
        exact ⟨r', by simp only [List.foldlM_cons, h1, bind, Except.bind]; exact h3, h4⟩
    exact this l a (hl a (by simp)) (fun x hx => hl x (by simp [hx]))

theorem mapM_total {α β : Type} {f : α → Res β} {P : β → Prop} : ∀ {l : List α}, (∀ a ∈ l, ∃ b, f a = .ok b ∧ P b) → ∃ r, l.mapM f = .ok r ∧ r.length = l.length ∧ ∀ b ∈ r, P b
  | [], _ => ⟨[], rfl, rfl, by simp⟩
  | a :: l, h => by
    obtain ⟨b, h1, h2⟩ := h a (by simp)
    obtain ⟨r, h3, h4, h5⟩ := mapM_total (l := l) (fun x hx => h x (by simp [hx]))
    refine ⟨b :: r, by simp [List.mapM_cons, h1, h3, bind, Except.bind, pure, Except.pure], by simp [h4], ?_⟩
    intro x hx
    rcases List.mem_cons.1 hx with rfl | hx
    · exact h2
    · exact h5 x hx

variable [DenselyOrdered E]

theorem Un.andPiece_tidy (σ : Orders E) {u : Un E} (hu : (SSet.un u).Tidy κ) {p : Piece E} (hp : p.WF) (hc : p.Cut κ) : ∃ r, u.andPiece σ p = .ok r ∧ r.Tidy κ := by
  suffices h : ∃ r, u.andPiece σ p = .ok r ∧ r.Cut κ by
    obtain ⟨r, h1, h2⟩ := h
    have := Un.andPiece_spec σ u hu.wf hu.disj p hp h1
    exact ⟨r, h1, this.wf, this.disj, h2⟩
  cases p with
  | fin s => exact hc.elim
  | nom n =>
    simp only [Un.andPiece]
    cases hk : u.nominals with
    | none => exact ⟨_, rfl, trivial⟩
    | some k =>
      obtain ⟨r, h1, h2, h3, h4, h5⟩ := Nom.and_spec (E := E) k n (hu.wf.nom_wf hk) hp
      refine ⟨r, h1, ?_⟩
      cases r with
      | empty => trivial
      | un w => exact absurd rfl (Nom.and_not_un h1 w)
      | pc q =>
        cases q with
        | nom m => trivial
        | fin s => obtain ⟨x, hx⟩ := id h2; exact absurd ((Piece.mem_den_fin s x).2 hx) (h4 x)
        | ivl i => obtain ⟨x, hx⟩ := (Ivl.WF.infinite h2).nonempty; exact absurd ((Piece.mem_den_ivl i x).2 hx) (h4 x)
  | ivl i =>
    simp only [Un.andPiece, hu.cut.atoms hu.wf, andOptFin, bind, Except.bind]
    obtain ⟨ints, h1, -⟩ := mapM_total (f := fun j => Piece.and (.ivl j) (.ivl i)) (P := fun _ => True) (l := u.intervals) (fun j hj => by
      obtain ⟨r, h, -⟩ := Ivl.and_cut (hu.wf.ivl_wf hj) hp (hu.cut.ivl hu.wf hj) hc
      exact ⟨r, h, trivial⟩)
    rw [h1]
    simp only
    have hF := mapM_ok h1
    set ne := ints.filter (fun s => !s.isEmpty) with hne
    have hsrc : ∀ s ∈ ne, ∃ k, s = .pc (.ivl k) ∧ k.WF ∧ k.Cut κ := by
      intro s hs
      rw [hne, List.mem_filter] at hs
      obtain ⟨j, hj, hR⟩ := forall₂_mem_right hF hs.1
      obtain ⟨r, h, hr⟩ := Ivl.and_cut (hu.wf.ivl_wf hj) hp (hu.cut.ivl hu.wf hj) hc
      rw [show Piece.and (.ivl j) (.ivl i) = Ivl.and j i from rfl, h] at hR
      cases hR
      rcases hr with rfl | hr
      · simp [SSet.isEmpty] at hs
      · exact hr
    have hnd : ne.Nodup := by
      rw [hne]
      have key : ∀ (l : List (Ivl E)) (r : List (SSet E)), l.Nodup → (∀ j ∈ l, j ∈ u.intervals) → List.Forall₂ (fun j b => Piece.and (.ivl j) (.ivl i) = .ok b) l r →
          (r.filter (fun s => !s.isEmpty)).Nodup := by
        intro l
        induction l with
        | nil => intro r _ _ h; cases h; simp
        | cons j l ih =>
          intro r hn hsub h
          cases h with
          | cons h1 h2 =>
            rename_i b r
            rw [List.nodup_cons] at hn
            have ih' := ih r hn.2 (fun k hk => hsub k (by simp [hk])) h2
            rw [List.filter_cons]
            split
            · rename_i hb
              rw [List.nodup_cons]
              refine ⟨?_, ih'⟩
              intro hbr
              rw [List.mem_filter] at hbr
              obtain ⟨j', hj', hR⟩ := forall₂_mem_right h2 hbr.1
              have hjj : j ≠ j' := fun e => hn.1 (e ▸ hj')
              have hju := hsub j (by simp)
              have hju' := hsub j' (by simp [hj'])
              obtain ⟨r1, e1, f1⟩ := Piece.and_spec (.ivl j) (.ivl i) (hu.wf.ivl_wf hju) hp
              obtain ⟨r2, e2, f2⟩ := Piece.and_spec (.ivl j') (.ivl i) (hu.wf.ivl_wf hju') hp
              rw [h1] at e1; cases e1
              rw [hR] at e2; cases e2
              obtain ⟨k, rfl, hk⟩ := hsrc b (by
                rw [hne, List.mem_filter]
                refine ⟨?_, hb⟩
                have := forall₂_mem_left hF hju
                obtain ⟨b', hb', hR'⟩ := this
                rw [h1] at hR'; cases hR'; exact hb')
              obtain ⟨x, hx⟩ := hk.1.infinite.nonempty
              have hx' : Val.num x ∈ (SSet.pc (.ivl k)).den := (Piece.mem_den_ivl k x).2 hx
              have g1 := ((f1.iff _).1 hx').1
              have g2 := ((f2.iff _).1 hx').1
              exact hu.disj (.ivl j) ((hu.wf.mem_values _).2 (.inr (.inr ⟨j, hju, rfl⟩))) (.ivl j') ((hu.wf.mem_values _).2 (.inr (.inr ⟨j', hju', rfl⟩)))
                (by simpa using hjj) _ ⟨g1, g2⟩
            · exact ih'
      exact key u.intervals ints hu.wf.nodup_intervals (fun _ h => h) hF
    clear_value ne
    match ne, hsrc, hnd with
    | [], _, _ => exact ⟨_, rfl, trivial⟩
    | [s], hsrc, _ =>
      obtain ⟨k, rfl, -, hk⟩ := hsrc s (by simp)
      exact ⟨_, rfl, hk⟩
    | s :: t :: l, hsrc, hnd =>
      have hmem : ∀ (P : SSet E → Prop), (∀ k, P (.pc (.ivl k))) → ∀ x ∈ s :: t :: l, P x := by
        intro P hP x hx; obtain ⟨k, rfl, -⟩ := hsrc x hx; exact hP k
      obtain ⟨k, rfl, -⟩ := hsrc s (by simp)
      obtain ⟨k', rfl, -⟩ := hsrc t (by simp)
      have hmap : ∃ ks : List (Ivl E), (SSet.pc (.ivl k) :: .pc (.ivl k') :: l) = (ks.map Piece.ivl).map SSet.pc := by
        have : ∀ l : List (SSet E), (∀ s ∈ l, ∃ k, s = .pc (.ivl k) ∧ k.WF ∧ k.Cut κ) → ∃ ks : List (Ivl E), l = (ks.map Piece.ivl).map SSet.pc := by
          intro l
          induction l with
          | nil => intro _; exact ⟨[], rfl⟩
          | cons a l ih =>
            intro h
            obtain ⟨k, rfl, -⟩ := h a (by simp)
            obtain ⟨ks, rfl⟩ := ih (fun x hx => h x (by simp [hx]))
            exact ⟨k :: ks, rfl⟩
        exact this _ hsrc
      obtain ⟨w, hw⟩ : ∃ w, mkUnion σ (.empty :: .pc (.ivl k) :: .pc (.ivl k') :: l) = .ok (.un w) := by
        apply mkUnion_total
        · intro w hw
          rcases List.mem_cons.1 hw with h | h
          · cases h
          · obtain ⟨_, e, -⟩ := hsrc _ h; cases e
        · obtain ⟨ks, e⟩ := hmap
          rw [e, List.filterMap_cons, SSet.piece?_empty, filterMap_piece?_map, filterMap_nom?_ivl]; simp
        · obtain ⟨ks, e⟩ := hmap
          rw [e, List.filterMap_cons, SSet.piece?_empty, filterMap_piece?_map, filterMap_fin?_ivl]; simp
        · refine ⟨.ivl k, .ivl k', ?_, by simp, by simp⟩
          intro e
          rw [e] at hnd
          simp at hnd
      refine ⟨_, hw, mkUnion_cut hw ?_⟩
      intro p hp
      rcases List.mem_cons.1 hp with h | h
      · cases h
      · obtain ⟨q, e, -, hq⟩ := hsrc _ h
        cases e; exact hq

theorem Piece.and_tidy {p q : Piece E} (hp : p.WF) (cp : p.Cut κ) (hq : q.WF) (cq : q.Cut κ) : ∃ r, Piece.and p q = .ok r ∧ r.Tidy κ := by
  obtain ⟨r, h1, h2⟩ := Piece.and_spec p q hp hq
  refine ⟨r, h1, h2.wf, h2.disj, ?_⟩
  cases p with
  | fin s => exact cp.elim
  | nom n =>
    cases q with
    | fin s => exact cq.elim
    | ivl i => simp only [Piece.and] at h1; cases h1; trivial
    | nom m =>
      obtain ⟨r', e1, e2, e3, e4, e5⟩ := Nom.and_spec (E := E) n m hp hq
      rw [Piece.and, e1] at h1; cases h1
      cases r with
      | empty => trivial
      | un w => exact absurd rfl (Nom.and_not_un e1 w)
      | pc q =>
        cases q with
        | nom m => trivial
        | fin s => obtain ⟨x, hx⟩ := id e2; exact absurd ((Piece.mem_den_fin s x).2 hx) (e4 x)
        | ivl i => obtain ⟨x, hx⟩ := (Ivl.WF.infinite e2).nonempty; exact absurd ((Piece.mem_den_ivl i x).2 hx) (e4 x)
  | ivl i =>
    cases q with
    | fin s => exact cq.elim
    | nom i => simp only [Piece.and] at h1; cases h1; trivial
    | ivl j =>
      obtain ⟨r', e1, e2⟩ := Ivl.and_cut hp hq cp cq
      rw [Piece.and, e1] at h1; cases h1
      rcases e2 with rfl | ⟨k, rfl, -, hk⟩
      · trivial
      · exact hk

theorem SSet.and_tidy (σ : Orders E) {s t : SSet E} (hs : s.Tidy κ) (ht : t.Tidy κ) : ∃ r, SSet.and σ s t = .ok r ∧ r.Tidy κ := by
  cases s with
  | empty => exact ⟨_, by cases t <;> rfl, .empty⟩
  | pc p =>
    cases t with
    | empty => exact ⟨_, rfl, .empty⟩
    | pc q => exact Piece.and_tidy hs.wf hs.cut ht.wf ht.cut
    | un u => exact Un.andPiece_tidy σ ht hs.wf hs.cut
  | un u =>
    cases t with
    | empty => exact ⟨_, rfl, .empty⟩
    | pc q => exact Un.andPiece_tidy σ hs ht.wf ht.cut
    | un v =>
      obtain ⟨ts, h1, h2, h3⟩ := mapM_total (f := fun p => u.andPiece σ p) (P := fun r => r.Tidy κ) (l := v.values)
        (fun p hp => Un.andPiece_tidy σ hs (ht.wf.pieces p hp) (ht.cut p hp))
      simp only [SSet.and, h1, bind, Except.bind]
      refine reduceM_total (fun a b ha hb => SSet.or_tidy σ ha hb) ?_ h3
      intro e
      have := ht.wf.two_le
      rw [← h2, e] at this
      simp at this

theorem Piece.invert_tidy (σ : Orders E) {p : Piece E} (hp : p.WF) (cp : p.Cut κ) : ∃ r, Piece.invert σ p = .ok r ∧ r.Tidy κ := by
  cases p with
  | fin s => exact cp.elim
  | nom n =>
    obtain ⟨r, h1, -⟩ := Nom.invert_spec (E := E) n hp
    obtain ⟨h2, h3⟩ := Piece.invert_wf σ (.nom n) hp h1
    refine ⟨r, h1, h2, h3, ?_⟩
    unfold Nom.invert at h1
    split_ifs at h1
    · cases h1; trivial
    · simp only [bind, Except.bind] at h1
      split at h1; · cases h1
      cases h1; trivial
  | ivl i =>
    obtain ⟨r, h1, -⟩ := Ivl.invert_spec σ i hp
    obtain ⟨h2, h3⟩ := Piece.invert_wf σ (.ivl i) hp h1
    refine ⟨r, h1, h2, h3, ?_⟩
    obtain ⟨a, b, lo, ro⟩ := i
    obtain ⟨hab, hlo, hro⟩ := hp
    obtain ⟨c1, c2⟩ := cp
    simp only at hab hlo hro c1 c2
    have left : ∀ {l : Ivl E}, a ≠ ⊥ → mkIvl ⊥ a false (!lo) = .ok l → l.Cut κ := by
      intro l ha h
      obtain ⟨-, rfl⟩ := mkIvl_ok h
      have hat : a ≠ ⊤ := fun e => by subst e; exact not_top_lt hab
      refine ⟨fun h => absurd rfl h, fun _ => ?_⟩
      simp only [hat, decide_false, Bool.or_false, Bool.not_not]
      exact c1 ha
    have right : ∀ {l : Ivl E}, b ≠ ⊤ → mkIvl b ⊤ (!ro) false = .ok l → l.Cut κ := by
      intro l hb h
      obtain ⟨-, rfl⟩ := mkIvl_ok h
      have hat : b ≠ ⊥ := fun e => by subst e; exact not_lt_bot hab
      refine ⟨fun _ => ?_, fun h => absurd rfl h⟩
      simp only [hat, decide_false, Bool.or_false]
      exact c2 hb
    unfold Ivl.invert at h1
    simp only at h1
    split_ifs at h1 with ha hb hb
    · cases h1; trivial
    · simp only [bind, Except.bind] at h1
      split at h1; · cases h1
      rename_i l hl
      cases h1; exact right hb hl
    · simp only [bind, Except.bind] at h1
      split at h1; · cases h1
      rename_i l hl
      cases h1; exact left ha hl
    · simp only [bind, Except.bind] at h1
      split at h1; · cases h1
      rename_i l hl
      split at h1; · cases h1
      rename_i r' hr
      refine mkUnion_cut h1 ?_
      intro p hp
      simp only [List.mem_cons, SSet.pc.injEq, List.not_mem_nil, or_false] at hp
      rcases hp with rfl | rfl
      · exact left ha hl
      · exact right hb hr

theorem SSet.invert_tidy [Nontrivial E] (σ : Orders E) {s : SSet E} (hs : s.Tidy κ) : ∃ r, SSet.invert σ s = .ok r ∧ r.Tidy κ := by
  cases s with
  | empty =>
    have hlt : (⊥ : E) < ⊤ := bot_lt_top
    refine ⟨.pc (.ivl ⟨⊥, ⊤, true, true⟩), by simp [SSet.invert, mkIvl, hlt, bind, Except.bind], .pc ⟨hlt, fun _ => rfl, fun _ => rfl⟩ ⟨fun h => absurd rfl h, fun h => absurd rfl h⟩⟩
  | pc p => exact Piece.invert_tidy σ hs.wf hs.cut
  | un u =>
    obtain ⟨ts, h1, h2, h3⟩ := mapM_total (f := fun p => p.invert σ) (P := fun r => r.Tidy κ) (l := u.values)
      (fun p hp => Piece.invert_tidy σ (hs.wf.pieces p hp) (hs.cut p hp))
    simp only [SSet.invert, h1, bind, Except.bind]
    refine reduceM_total (fun a b ha hb => SSet.and_tidy σ ha hb) ?_ h3
    intro e
    have := hs.wf.two_le
    rw [← h2, e] at this
    simp at this

end Sppl
