import Verif.Sets.AndLemmas
import Mathlib.Data.List.Chain

set_option linter.all false

namespace Sppl
variable {E : Type} [LinearOrder E] [BoundedOrder E]

/-- No nominal piece. -/
def SSet.PureReal : SSet E → Prop
  | .empty => True
  | .pc p => ∀ n, p ≠ .nom n
  | .un u => ∀ p ∈ u.values, ∀ n, p ≠ .nom n

/-- What the complement of a real set guarantees. -/
structure InvReal (s : Set (Val E)) (r : SSet E) : Prop where
  wf : r.WF
  disj : r.Disj
  str : ∀ t, Val.str t ∉ r.den
  num : ∀ x, Val.num x ∈ r.den ↔ Fin' x ∧ Val.num x ∉ s

theorem Nom.invert_spec (n : Nom) (hn : n.WF) :
    ∃ r : SSet E, n.invert = .ok r ∧ r.WF ∧ r.Disj ∧ (∀ x, Val.num x ∉ r.den) ∧
      ∀ t, Val.str t ∈ r.den ↔ n.has t = false := by
  obtain ⟨v, b⟩ := n
  unfold Nom.invert
  by_cases h : v = ∅
  · subst h
    have hb : b = some true := by simpa [Nom.WF] using hn
    subst hb
    exact ⟨.empty, by simp [Nom.neg], trivial, trivial, by simp, by simp [Nom.has, Nom.neg]⟩
  · simp only [h, if_false]
    have hne := Finset.nonempty_iff_ne_empty.2 h
    rw [mkNom_eq (.inl hne)]
    refine ⟨_, rfl, .inl hne, trivial, by simp, ?_⟩
    intro t
    by_cases hb : b = some true <;> simp [Piece.str_mem_den_nom, Nom.has, Nom.neg, hb]

theorem Ivl.WF.fin {i : Ivl E} (hi : i.WF) {x : E} (hx : i.Mem x) : Fin' x := by
  obtain ⟨h1, h2, h3⟩ := hi
  unfold Ivl.Mem at hx; unfold Fin'
  constructor
  · rintro rfl
    have : i.a = ⊥ := by
      have := hx.1; split at this
      · simp at this
      · simpa using this
    simp [h2 this, this] at hx
  · rintro rfl
    have : i.b = ⊤ := by
      have := hx.2; split at this
      · simp at this
      · simpa using this
    simp [h3 this, this] at hx

theorem Ivl.invert_spec (σ : Orders E) (i : Ivl E) (hi : i.WF) :
    ∃ r, i.invert σ = .ok r ∧ InvReal (Piece.ivl i).den r := by
  obtain ⟨a, b, lo, ro⟩ := i
  obtain ⟨hab, hlo, hro⟩ := hi
  simp only at hab hlo hro
  unfold Ivl.invert
  dsimp only
  have hbt : ∀ x : E, ¬ (⊤ : E) < x := fun x => not_top_lt
  have hbb : ∀ x : E, ¬ x < (⊥ : E) := fun x => not_lt_bot
  by_cases h1 : a = ⊥
  · rw [if_pos h1]
    by_cases h2 : b = ⊤
    · rw [if_pos h2]
      refine ⟨_, rfl, trivial, trivial, by simp, ?_⟩
      intro x
      simp [Ivl.Mem, hlo h1, hro h2, h1, h2, Fin', bot_lt_iff_ne_bot, lt_top_iff_ne_top]
    · rw [if_neg h2, mkIvl_eq (lt_top_iff_ne_top.2 h2)]
      refine ⟨_, rfl, ⟨by simp [lt_top_iff_ne_top, h2], by simp +contextual, by simp⟩, trivial, by simp, ?_⟩
      intro x
      have hb0 : b ≠ ⊥ := by rintro rfl; simp at hab
      simp [Ivl.Mem, hlo h1, h1, Fin', bot_lt_iff_ne_bot, lt_top_iff_ne_top, hb0]
      have := lt_top_iff_ne_top (a := x); have := bot_lt_iff_ne_bot (a := x); have := bot_lt_iff_ne_bot (a := b)
      grind
  · rw [if_neg h1]
    by_cases h2 : b = ⊤
    · rw [if_pos h2, mkIvl_eq (bot_lt_iff_ne_bot.2 h1)]
      refine ⟨_, rfl, ⟨by simp [bot_lt_iff_ne_bot, h1], by simp, by simp +contextual⟩, trivial, by simp, ?_⟩
      intro x
      have ha0 : a ≠ ⊤ := by rintro rfl; simp at hab
      simp [Ivl.Mem, hro h2, h2, Fin', bot_lt_iff_ne_bot, lt_top_iff_ne_top, ha0]
      have := lt_top_iff_ne_top (a := x); have := bot_lt_iff_ne_bot (a := x); have := lt_top_iff_ne_top (a := a)
      grind
    · have ha0 : a ≠ ⊤ := by rintro rfl; simp at hab
      have hb0 : b ≠ ⊥ := by rintro rfl; simp at hab
      rw [if_neg h2, mkIvl_eq (bot_lt_iff_ne_bot.2 h1), mkIvl_eq (lt_top_iff_ne_top.2 h2)]
      simp only [bind, Except.bind]
      simp only [ha0, hb0, decide_false, decide_true, Bool.or_false, Bool.false_or]
      obtain ⟨r, e1, e2, e3, e4⟩ := mkUnion_pair σ (.ivl ⟨⊥, a, true, !lo⟩) (.ivl ⟨b, ⊤, !ro, true⟩)
        ⟨bot_lt_iff_ne_bot.2 h1, by simp, by simp [ha0]⟩ ⟨lt_top_iff_ne_top.2 h2, by simp [hb0], by simp⟩
        (by simp only [ne_eq, Piece.ivl.injEq, Ivl.mk.injEq]; intro h; exact hb0 h.1.symm)
        (by simp) (by simp)
        (by intro v; cases v <;> simp [Ivl.Mem]; grind)
      refine ⟨r, e1, e2, e3, ?_, ?_⟩
      · intro t; rw [e4]; simp
      · intro x; rw [e4]
        simp [Ivl.Mem, Fin']
        have := lt_top_iff_ne_top (a := x); have := bot_lt_iff_ne_bot (a := x); have := lt_top_iff_ne_top (a := a)
        have := bot_lt_iff_ne_bot (a := b); have := lt_top_iff_ne_top (a := b); have := bot_lt_iff_ne_bot (a := a)
        grind

/-- The gaps between consecutive elements of a strictly increasing list. -/
theorem gaps (x : E) : ∀ (v0 : E) (l : List E) (vl : E), (v0 :: l).Pairwise (· < ·) →
    (v0 :: l).getLast? = some vl →
    (x ∉ v0 :: l ↔ x < v0 ∨ (∃ p ∈ (v0 :: l).zip l, p.1 < x ∧ x < p.2) ∨ vl < x)
  | v0, [], vl, _, h => by
    simp at h; subst h; simp
  | v0, v1 :: l, vl, hs, h => by
    have h' : (v1 :: l).getLast? = some vl := by simpa using h
    have ih := gaps x v1 l vl (List.pairwise_cons.1 hs).2 h'
    have h01 : v0 < v1 := (List.pairwise_cons.1 hs).1 v1 (by simp)
    have hvl : vl ∈ v1 :: l := List.mem_of_getLast? h'
    have h0l : v0 < vl := (List.pairwise_cons.1 hs).1 vl hvl
    have hz : ∀ p ∈ (v1 :: l).zip l, v0 < p.1 := by
      intro p hp; exact (List.pairwise_cons.1 hs).1 _ (List.of_mem_zip hp).1
    have e : (v0 :: v1 :: l).zip (v1 :: l) = (v0, v1) :: (v1 :: l).zip l := rfl
    rw [e]
    have : x ∉ v0 :: v1 :: l ↔ x ≠ v0 ∧ x ∉ v1 :: l := by simp
    rw [this, ih]
    simp only [List.mem_cons (a := (_ : E × E)), exists_eq_or_imp]
    constructor
    · rintro ⟨h1, h2 | ⟨p, hp, h2⟩ | h2⟩
      · by_cases hx : x < v0
        · exact .inl hx
        · right; left; exact .inl (by grind)
      · right; left; exact .inr ⟨p, hp, h2⟩
      · right; right; exact h2
    · rintro (h2 | (h2 | ⟨p, hp, h2⟩) | h2)
      · exact ⟨h2.ne, .inl (h2.trans h01)⟩
      · exact ⟨h2.1.ne', .inl h2.2⟩
      · exact ⟨((hz p hp).trans h2.1).ne', .inr (.inl ⟨p, hp, h2⟩)⟩
      · exact ⟨(h0l.trans h2).ne', .inr (.inr h2)⟩

theorem finInvert_spec (σ : Orders E) (s : Finset E) {r : SSet E} (h : finInvert σ s = .ok r) :
    InvReal (Piece.fin s).den r ∧ ∀ x ∈ s, Fin' x := by
  unfold finInvert at h
  have hsort : (s.sort (· ≤ ·)).Pairwise (· < ·) := Finset.sortedLT_sort s |>.pairwise
  have hmem : ∀ x, x ∈ s.sort (· ≤ ·) ↔ x ∈ s := fun x => Finset.mem_sort _
  generalize s.sort (· ≤ ·) = vs at h hsort hmem
  dsimp only at h
  cases vs with
  | nil => simp at h
  | cons v0 l =>
   cases hl : (v0 :: l).getLast? with
   | none => simp at hl
   | some vl =>
    rw [hl] at h
    simp only [bind, Except.bind, List.tail_cons] at h
    split at h; · cases h
    rename_i L hL
    split at h; · cases h
    rename_i mids hmids
    split at h; · cases h
    rename_i R hR
    obtain ⟨hv0, rfl⟩ := mkIvl_ok hL
    obtain ⟨hvl, rfl⟩ := mkIvl_ok hR
    have hF := mapM_ok hmids
    have hvlm : vl ∈ v0 :: l := List.mem_of_getLast? hl
    have hv0l : ∀ x ∈ v0 :: l, v0 ≤ x := by
      intro x hx; rcases List.mem_cons.1 hx with rfl | hx
      · exact le_rfl
      · exact ((List.pairwise_cons.1 hsort).1 x hx).le
    have hvlmax : ∀ x ∈ v0 :: l, x ≤ vl := by
      have : ∀ (w : List E), w.Pairwise (· < ·) → w.getLast? = some vl → ∀ x ∈ w, x ≤ vl := by
        intro w
        induction w with
        | nil => simp
        | cons a w ih =>
          intro hp hg x hx
          cases w with
          | nil => simp at hg hx; subst hg hx; exact le_rfl
          | cons b w =>
            have hg' : (b :: w).getLast? = some vl := by simpa using hg
            rcases List.mem_cons.1 hx with rfl | hx
            · exact ((List.pairwise_cons.1 hp).1 vl (List.mem_of_getLast? hg')).le
            · exact ih (List.pairwise_cons.1 hp).2 hg' x hx
      exact this _ hsort hl
    have hfin : ∀ x ∈ s, Fin' x := by
      intro x hx
      have hx' := (hmem x).2 hx
      exact ⟨(hv0.trans_le (hv0l x hx')).ne', ((hvlmax x hx').trans_lt hvl).ne⟩
    have hv0' : Fin' v0 := hfin v0 ((hmem v0).1 (by simp))
    have hvl' : Fin' vl := hfin vl ((hmem vl).1 hvlm)
    -- consecutive intervals
    have hmm : ∀ i, i ∈ mids ↔ ∃ p ∈ (v0 :: l).zip l, i = ⟨p.1, p.2, true, true⟩ := by
      intro i
      constructor
      · intro hi
        obtain ⟨p, hp, hi⟩ := forall₂_mem_right hF hi
        obtain ⟨hlt, hi⟩ := mkIvl_ok hi
        exact ⟨p, hp, by rw [hi]; simp⟩
      · rintro ⟨p, hp, rfl⟩
        obtain ⟨i, hi, hR⟩ := forall₂_mem_left hF hp
        obtain ⟨hlt, rfl⟩ := mkIvl_ok hR
        simpa using hi
    obtain ⟨u, h1, h2, -, -, -, h6⟩ := mkUnion_ok h
    subst h1
    have hval : ∀ p, p ∈ u.values ↔ p = .ivl ⟨⊥, v0, true, true⟩ ∨
        (∃ q ∈ (v0 :: l).zip l, p = .ivl ⟨q.1, q.2, true, true⟩) ∨ p = .ivl ⟨vl, ⊤, true, true⟩ := by
      intro p
      rw [h2]
      simp only [List.mem_map, List.mem_append, List.mem_singleton, SSet.pc.injEq, hmm, List.cons_append,
        List.nil_append, List.mem_cons, List.not_mem_nil, or_false]
      constructor
      · rintro ⟨i, (rfl | ⟨q, hq, rfl⟩ | rfl), rfl⟩
        · left; simp
        · right; left; exact ⟨q, hq, rfl⟩
        · right; right; simp
      · rintro (rfl | ⟨q, hq, rfl⟩ | rfl)
        · exact ⟨_, .inl rfl, by simp⟩
        · exact ⟨_, .inr (.inl ⟨q, hq, rfl⟩), rfl⟩
        · exact ⟨_, .inr (.inr rfl), by simp⟩
    -- ordering of gaps
    have hzlt : ∀ q ∈ (v0 :: l).zip l, q.1 < q.2 ∧ v0 ≤ q.1 ∧ q.2 ≤ vl ∧ q.1 ∈ v0 :: l ∧ q.2 ∈ v0 :: l := by
      intro q hq
      obtain ⟨a, b⟩ := List.of_mem_zip hq
      refine ⟨?_, hv0l _ a, hvlmax _ (by simp [b]), a, by simp [b]⟩
      obtain ⟨i, hi, hR⟩ := forall₂_mem_left hF hq
      exact (mkIvl_ok hR).1
    have hzz : ∀ (w : E) (l : List E), (w :: l).Pairwise (· < ·) → ∀ q ∈ (w :: l).zip l, ∀ y ∈ w :: l, y ≤ q.1 ∨ q.2 ≤ y := by
      intro w l
      induction l generalizing w with
      | nil => simp
      | cons b l ih =>
        intro hp q hq y hy
        have e : (w :: b :: l).zip (b :: l) = (w, b) :: (b :: l).zip l := rfl
        rw [e] at hq
        rw [List.pairwise_cons] at hp
        rcases List.mem_cons.1 hq with rfl | hq
        · rcases List.mem_cons.1 hy with rfl | hy
          · exact .inl le_rfl
          · right
            rcases List.mem_cons.1 hy with rfl | hy
            · exact le_rfl
            · exact ((List.pairwise_cons.1 hp.2).1 y hy).le
        · rcases List.mem_cons.1 hy with rfl | hy
          · left; exact (hp.1 _ (List.of_mem_zip (show (q.1, q.2) ∈ (b :: l).zip l from by assumption)).1).le
          · exact ih b hp.2 q hq y hy
    refine ⟨⟨h6 ?_, ?_, ?_, ?_⟩, hfin⟩
    · intro p hp
      rw [← h2, hval] at hp
      rcases hp with rfl | ⟨q, hq, rfl⟩ | rfl
      · exact ⟨hv0, by simp, by simp⟩
      · exact ⟨(hzlt q hq).1, by simp, by simp⟩
      · exact ⟨hvl, by simp, by simp⟩
    · intro p hp q hq hpq v
      rw [hval] at hp hq
      have h0l := hv0l vl hvlm
      rcases hp with rfl | ⟨p, hp, rfl⟩ | rfl <;> rcases hq with rfl | ⟨q, hq, rfl⟩ | rfl <;>
        cases v <;> simp [Ivl.Mem]
      · exact absurd rfl hpq
      · have := hzlt q hq; grind
      · grind
      · have := hzlt p hp; grind
      · have e1 := hzz v0 l hsort p hp q.1 (hzlt q hq).2.2.2.1
        have e2 := hzz v0 l hsort p hp q.2 (hzlt q hq).2.2.2.2
        have e3 := hzz v0 l hsort q hq p.1 (hzlt p hp).2.2.2.1
        have e4 := hzz v0 l hsort q hq p.2 (hzlt p hp).2.2.2.2
        have e5 := hzlt p hp
        have e6 := hzlt q hq
        have : ¬ (p.1 = q.1 ∧ p.2 = q.2) := by
          rintro ⟨h1, h2⟩; apply hpq; rw [h1, h2]
        grind
      · have := hzlt p hp; grind
      · grind
      · have := hzlt q hq; grind
      · exact absurd rfl hpq
    · intro t; simp [hval]
    · intro x
      have hg := gaps x v0 l vl hsort hl
      rw [hmem] at hg
      simp only [Piece.mem_den_fin]
      rw [hg]
      simp only [SSet.mem_den_un, hval]
      have hbx := bot_lt_iff_ne_bot (a := x)
      have hxt := lt_top_iff_ne_top (a := x)
      constructor
      · rintro ⟨p, rfl | ⟨q, hq, rfl⟩ | rfl, hv⟩ <;> simp [Ivl.Mem] at hv
        · exact ⟨⟨hbx.1 hv.1, (hv.2.trans hv0'.2.lt_top).ne⟩, .inl hv.2⟩
        · have := hzlt q hq
          exact ⟨⟨(bot_le.trans_lt hv.1).ne', (hv.2.trans_le le_top).ne⟩, .inr (.inl ⟨q, hq, hv⟩)⟩
        · exact ⟨⟨(bot_le.trans_lt hv.1).ne', hxt.1 hv.2⟩, .inr (.inr hv.1)⟩
      · rintro ⟨hf, h | ⟨q, hq, h⟩ | h⟩
        · exact ⟨_, .inl rfl, by simp [Ivl.Mem, h, hbx, hf.1]⟩
        · exact ⟨_, .inr (.inl ⟨q, hq, rfl⟩), by simpa [Ivl.Mem] using h⟩
        · exact ⟨_, .inr (.inr rfl), by simp [Ivl.Mem, h, hxt, hf.2]⟩

theorem Piece.invert_real (σ : Orders E) (p : Piece E) (hp : p.WF) (hr : ∀ n, p ≠ .nom n) {r : SSet E}
    (h : p.invert σ = .ok r) : InvReal p.den r := by
  cases p with
  | nom n => exact absurd rfl (hr n)
  | fin s => exact (finInvert_spec σ s h).1
  | ivl i =>
    obtain ⟨r', e1, e2⟩ := Ivl.invert_spec σ i hp
    rw [Piece.invert, e1] at h; cases h; exact e2

theorem Piece.invert_wf (σ : Orders E) (p : Piece E) (hp : p.WF) {r : SSet E}
    (h : p.invert σ = .ok r) : r.WF ∧ r.Disj := by
  cases p with
  | nom n =>
    obtain ⟨r', e1, e2, e3, -⟩ := Nom.invert_spec (E := E) n hp
    rw [Piece.invert, e1] at h; cases h; exact ⟨e2, e3⟩
  | fin s => exact ⟨(finInvert_spec σ s h).1.wf, (finInvert_spec σ s h).1.disj⟩
  | ivl i =>
    obtain ⟨r', e1, e2⟩ := Ivl.invert_spec σ i hp
    rw [Piece.invert, e1] at h; cases h; exact ⟨e2.wf, e2.disj⟩

theorem SSet.invert_wf (σ : Orders E) (s : SSet E) (hs : s.WF) {r : SSet E}
    (h : s.invert σ = .ok r) : r.WF ∧ r.Disj := by
  cases s with
  | empty =>
    simp only [SSet.invert, bind, Except.bind] at h
    split at h; · cases h
    rename_i i hi
    obtain ⟨h1, rfl⟩ := mkIvl_ok hi
    cases h
    exact ⟨⟨h1, by simp, by simp⟩, trivial⟩
  | pc p => exact Piece.invert_wf σ p hs h
  | un u =>
    simp only [SSet.invert, bind, Except.bind] at h
    split at h; · cases h
    rename_i inv hinv
    have hF := mapM_ok hinv
    obtain ⟨a1, a2, -⟩ := reduce_and_spec σ inv (by
      intro s hs'
      obtain ⟨p, hp, hR⟩ := forall₂_mem_right hF hs'
      exact Piece.invert_wf σ p (hs.pieces p hp) hR) h
    exact ⟨a1, a2⟩

theorem SSet.invert_real (σ : Orders E) (s : SSet E) (hs : s.WF) (hr : s.PureReal) {r : SSet E}
    (h : s.invert σ = .ok r) : InvReal s.den r := by
  cases s with
  | empty =>
    simp only [SSet.invert, bind, Except.bind] at h
    split at h; · cases h
    rename_i i hi
    obtain ⟨h1, rfl⟩ := mkIvl_ok hi
    cases h
    refine ⟨⟨h1, by simp, by simp⟩, trivial, by simp, ?_⟩
    intro x; simp [Ivl.Mem, Fin', bot_lt_iff_ne_bot, lt_top_iff_ne_top]
  | pc p => exact Piece.invert_real σ p hs hr h
  | un u =>
    have hwd := SSet.invert_wf σ _ hs h
    simp only [SSet.invert, bind, Except.bind] at h
    split at h; · cases h
    rename_i inv hinv
    have hF := mapM_ok hinv
    have hsrc : ∀ s ∈ inv, ∃ p ∈ u.values, InvReal p.den s := by
      intro s hs'
      obtain ⟨p, hp, hR⟩ := forall₂_mem_right hF hs'
      exact ⟨p, hp, Piece.invert_real σ p (hs.pieces p hp) (hr p hp) hR⟩
    obtain ⟨a1, a2, a3, a4⟩ := reduce_and_spec σ inv (by
      intro s hs'
      obtain ⟨p, hp, hR⟩ := hsrc s hs'
      exact ⟨hR.wf, hR.disj⟩) h
    have hne : ∃ s, s ∈ inv := by
      rcases inv with _ | ⟨s, _⟩
      · simp [reduceM] at h
      · exact ⟨s, by simp⟩
    obtain ⟨s0, hs0⟩ := hne
    obtain ⟨p0, hp0, hI0⟩ := hsrc s0 hs0
    refine ⟨a1, a2, ?_, ?_⟩
    · intro t ht; exact hI0.str t (a3 _ ht s0 hs0)
    · intro x
      constructor
      · intro hx
        refine ⟨((hI0.num x).1 (a3 _ hx s0 hs0)).1, ?_⟩
        rintro ⟨p, hp, hxp⟩
        obtain ⟨s, hs', hR⟩ := forall₂_mem_left hF hp
        have := Piece.invert_real σ p (hs.pieces p hp) (hr p hp) hR
        exact ((this.num x).1 (a3 _ hx s hs')).2 hxp
      · rintro ⟨hf, hx⟩
        refine a4 (.num x) hf ?_
        intro s hs'
        obtain ⟨p, hp, hI⟩ := hsrc s hs'
        exact (hI.num x).2 ⟨hf, fun h => hx ⟨p, hp, h⟩⟩

end Sppl
