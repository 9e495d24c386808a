import Verif.Events.Peak2Lemmas

set_option linter.all false

/-!
# Inverting expressions with a reciprocal (helper lemmas)
-/

namespace Sppl
open Classical

noncomputable abbrev negOpen : Ivl EReal := ⟨⊥, 0, true, true⟩
noncomputable abbrev posOpen : Ivl EReal := ⟨0, ⊤, true, true⟩

theorem negOpen_wf : negOpen.WF := ⟨EReal.bot_lt_zero, by simp, by simp⟩
theorem posOpen_wf : posOpen.WF := ⟨EReal.zero_lt_top, by simp, by simp⟩

/-- An interval of positive numbers or of negative numbers. -/
def Signed (m : Ivl EReal) : Prop := m.WF ∧ ((∀ z, m.Mem z → (0 : EReal) < z) ∨ (∀ z, m.Mem z → z < (0 : EReal)))

/-- The intersection of an open interval and an interval is an interval or empty. -/
theorem open_and {a b : EReal} {i : Ivl EReal} (hj : (⟨a, b, true, true⟩ : Ivl EReal).WF) (hi : i.WF) :
    ∃ S, Ivl.and ⟨a, b, true, true⟩ i = .ok S ∧ (S = .empty ∨ ∃ m, S = .pc (.ivl m) ∧ m.WF ∧ ∀ z, m.Mem z → (⟨a, b, true, true⟩ : Ivl EReal).Mem z ∧ i.Mem z) := by
  obtain ⟨S, hS, -⟩ := Ivl.and_spec _ i hj hi
  obtain ⟨h1, h2⟩ := and_flat hj hi hS
  refine ⟨S, hS, ?_⟩
  cases h1 with
  | empty => exact .inl rfl
  | ivl hm => exact .inr ⟨_, rfl, hm, h2 _ rfl⟩
  | @one y =>
    exfalso
    unfold Ivl.and at hS
    have e1 : (⟨a, b, true, true⟩ : Ivl EReal).has i.a = true → b ≠ i.a := by
      intro h; exact (Ivl.has_iff _ _).1 h |>.2.ne'
    have e2 : (⟨a, b, true, true⟩ : Ivl EReal).has i.b = true → a ≠ i.b := by
      intro h; exact (Ivl.has_iff _ _).1 h |>.1.ne
    split_ifs at hS <;>
      first
        | exact absurd (by assumption) (e1 (by assumption))
        | exact absurd (by assumption) (e2 (by assumption))
        | (simp only [bind, Except.bind] at hS; split at hS <;> simp at hS)
        | (simp at hS; done)

theorem neg_and {i : Ivl EReal} (hi : i.WF) : ∃ S, Ivl.and negOpen i = .ok S ∧ (S = .empty ∨ ∃ m, S = .pc (.ivl m) ∧ m.WF ∧ (∀ z, m.Mem z → z < 0) ∧ ∀ z, m.Mem z → i.Mem z) := by
  obtain ⟨S, h1, h2⟩ := open_and negOpen_wf hi
  refine ⟨S, h1, h2.imp id ?_⟩
  rintro ⟨m, e, w, h⟩
  exact ⟨m, e, w, fun z hz => (h z hz).1.2, fun z hz => (h z hz).2⟩

theorem pos_and {i : Ivl EReal} (hi : i.WF) : ∃ S, Ivl.and posOpen i = .ok S ∧ (S = .empty ∨ ∃ m, S = .pc (.ivl m) ∧ m.WF ∧ (∀ z, m.Mem z → 0 < z) ∧ ∀ z, m.Mem z → i.Mem z) := by
  obtain ⟨S, h1, h2⟩ := open_and posOpen_wf hi
  refine ⟨S, h1, h2.imp id ?_⟩
  rintro ⟨m, e, w, h⟩
  exact ⟨m, e, w, fun z hz => (h z hz).1.1, fun z hz => (h z hz).2⟩

/-- What the range of `1/X` leaves of an interval. -/
def Halves (S : SSet EReal) : Prop :=
  S = .empty ∨ (∃ m, S = .pc (.ivl m) ∧ Signed m) ∨ ∃ w, S = .un w ∧ w.args ≠ [] ∧ ∀ p ∈ w.args, ∃ m, p = .ivl m ∧ Signed m

theorem halves_finish (σ : Orders EReal) {A B : SSet EReal}
    (hA : A = .empty ∨ ∃ m, A = .pc (.ivl m) ∧ Signed m) (hB : B = .empty ∨ ∃ m, B = .pc (.ivl m) ∧ Signed m)
    (hd : ∀ m m', A = .pc (.ivl m) → B = .pc (.ivl m') → m ≠ m') :
    ∃ S, finishAnd σ .empty ([A, B].filter (fun s => !s.isEmpty)) = .ok S ∧ Halves S ∧ ((A = .empty ∨ B = .empty) → S = .empty ∨ ∃ m, S = .pc (.ivl m) ∧ Signed m) := by
  rcases hA with rfl | ⟨m, rfl, hm⟩
  · rcases hB with rfl | ⟨m', rfl, hm'⟩
    · exact ⟨_, rfl, .inl rfl, fun _ => .inl rfl⟩
    · exact ⟨_, rfl, .inr (.inl ⟨m', rfl, hm'⟩), fun _ => .inr ⟨m', rfl, hm'⟩⟩
  · rcases hB with rfl | ⟨m', rfl, hm'⟩
    · exact ⟨_, rfl, .inr (.inl ⟨m, rfl, hm⟩), fun _ => .inr ⟨m, rfl, hm⟩⟩
    · obtain ⟨u, g, -, -, -, -, g5⟩ := mkUnion_two σ (hd _ _ rfl rfl) (l := [.empty, .pc (.ivl m), .pc (.ivl m')]) rfl rfl
      refine ⟨_, g, .inr (.inr ⟨u, rfl, by simp [g5], ?_⟩), by simp⟩
      intro p hp
      rw [g5] at hp
      simp only [List.mem_cons, List.not_mem_nil, or_false] at hp
      rcases hp with rfl | rfl
      · exact ⟨m, rfl, hm⟩
      · exact ⟨m', rfl, hm'⟩

theorem recip_and_ivl (c : Ctx) {u : Un EReal} (h2 : u.atoms = none) (h3 : u.intervals.Perm [negOpen, posOpen]) {i : Ivl EReal} (hi : i.WF) :
    ∃ S, SSet.and c.σ (.un u) (.pc (.ivl i)) = .ok S ∧ Halves S ∧ (Signed i → S = .empty ∨ ∃ m, S = .pc (.ivl m) ∧ Signed m) := by
  obtain ⟨A, a1, a2⟩ := neg_and hi
  obtain ⟨B, b1, b2⟩ := pos_and hi
  have sA : A = .empty ∨ ∃ m, A = .pc (.ivl m) ∧ Signed m := a2.imp id (fun ⟨m, e, w, h, _⟩ => ⟨m, e, w, .inr h⟩)
  have sB : B = .empty ∨ ∃ m, B = .pc (.ivl m) ∧ Signed m := b2.imp id (fun ⟨m, e, w, h, _⟩ => ⟨m, e, w, .inl h⟩)
  have hd : ∀ m m', A = .pc (.ivl m) → B = .pc (.ivl m') → m ≠ m' := by
    rintro m m' rfl rfl rfl
    rcases a2 with h | ⟨_, e, w, h, _⟩
    · cases h
    · cases e
      rcases b2 with h' | ⟨_, e', w', h', _⟩
      · cases h'
      · cases e'
        obtain ⟨x, y, -, mx, -⟩ := w.two
        exact absurd (h _ mx) (not_lt.2 (h' _ mx).le)
  have hs : Signed i → A = .empty ∨ B = .empty := by
    rintro ⟨-, hp | hn⟩
    · left
      rcases a2 with h | ⟨m, e, w, h, h'⟩
      · exact h
      · obtain ⟨x, y, -, mx, -⟩ := w.two
        exact absurd (h _ mx) (not_lt.2 (hp _ (h' _ mx)).le)
    · right
      rcases b2 with h | ⟨m, e, w, h, h'⟩
      · exact h
      · obtain ⟨x, y, -, mx, -⟩ := w.two
        exact absurd (h _ mx) (not_lt.2 (hn _ (h' _ mx)).le)
  have key : ∀ x y X Y, u.intervals = [x, y] → Ivl.and x i = .ok X → Ivl.and y i = .ok Y → SSet.and c.σ (.un u) (.pc (.ivl i)) = finishAnd c.σ .empty ([X, Y].filter (fun s => !s.isEmpty)) := by
    intro x y X Y h1 h2' h3'
    simp only [SSet.and, Un.andPiece, h2, andOptFin, h1, List.mapM_cons, List.mapM_nil, Piece.and, h2', h3', bind, Except.bind, pure, Except.pure]
  rcases perm_two h3 with h | h
  · obtain ⟨S, g1, g2, g3⟩ := halves_finish c.σ sA sB hd
    exact ⟨S, by rw [key _ _ _ _ h a1 b1]; exact g1, g2, fun hi => g3 (hs hi)⟩
  · obtain ⟨S, g1, g2, g3⟩ := halves_finish c.σ sB sA (fun m m' h h' => (hd m' m h' h).symm)
    exact ⟨S, by rw [key _ _ _ _ h b1 a1]; exact g1, g2, fun hi => g3 (hs hi).symm⟩

theorem ereal_toReal_lt {x y : EReal} (hx : x ≠ ⊥) (h : x < y) (hy : y ≠ ⊤) : x.toReal < y.toReal := by
  have h1 : x ≠ ⊤ := (h.trans_le le_top).ne
  have h2 : y ≠ ⊥ := (bot_le.trans_lt h).ne'
  lift x to ℝ using ⟨h1, hx⟩
  lift y to ℝ using ⟨hy, h2⟩
  rw [EReal.toReal_coe, EReal.toReal_coe]; exact_mod_cast h

/-- `Reciprocal.invert_interval` returns on intervals of one sign. -/
theorem recipInterval_total {m : Ivl EReal} (h : Signed m) : ∃ j, recipInterval m = .ok (.pc (.ivl j)) ∧ j.WF := by
  obtain ⟨w, hp | hn⟩ := h
  · have ha : 0 ≤ m.a := by
      by_contra hlt
      rw [not_le] at hlt
      obtain ⟨x, h1, h2⟩ := EReal.lt_iff_exists_real_btwn.1 (lt_min w.1 hlt)
      exact absurd (hp x (Ivl.mem_of_btwn h1 (h2.trans_le (min_le_left _ _)))) (not_lt.2 (h2.le.trans (min_le_right _ _)))
    have ho : 0 < m.a ∨ m.lo = true := by
      by_contra hc
      rw [not_or] at hc
      have e : m.a = 0 := le_antisymm (not_lt.1 hc.1) ha
      have : m.Mem 0 := by
        unfold Ivl.Mem
        rw [if_neg hc.2, e]
        have hb : 0 < m.b := by rw [← e]; exact w.1
        exact ⟨le_rfl, by split; exacts [hb, hb.le]⟩
      exact absurd (hp 0 this) (lt_irrefl _)
    have lt : (if m.b = ⊤ then (0 : EReal) else ((m.b.toReal⁻¹ : ℝ) : EReal)) < (if 0 < m.a then ((m.a.toReal⁻¹ : ℝ) : EReal) else ⊤) := by
      have hb0 : 0 < m.b := ha.trans_lt w.1
      by_cases hb : m.b = ⊤
      · rw [if_pos hb]
        split
        · rename_i h0
          have hat : m.a ≠ ⊤ := (w.1.trans_le le_top).ne
          have : 0 < m.a.toReal := EReal.toReal_pos h0 hat
          exact_mod_cast inv_pos.2 this
        · exact EReal.zero_lt_top
      · rw [if_neg hb]
        split
        · rename_i h0
          have hat : m.a ≠ ⊤ := (w.1.trans_le le_top).ne
          have p1 : 0 < m.a.toReal := EReal.toReal_pos h0 hat
          have p2 : m.a.toReal < m.b.toReal := ereal_toReal_lt (by intro h; rw [h] at h0; simp at h0) w.1 hb
          exact_mod_cast (inv_lt_inv₀ (p1.trans p2) p1).2 p2
        · exact EReal.coe_lt_top _
    refine ⟨_, ?_, mkIvl_wf (mkIvl_eq (lo := m.ro) (ro := m.lo) lt)⟩
    unfold recipInterval
    rw [if_pos ⟨ha, w.1⟩, if_pos ho]
    simp only [transformInterval, if_true, mkIvl_eq lt, bind, Except.bind]
  · have hb : m.b ≤ 0 := by
      by_contra hlt
      rw [not_le] at hlt
      obtain ⟨x, h1, h2⟩ := EReal.lt_iff_exists_real_btwn.1 (max_lt w.1 hlt)
      exact absurd (hn x (Ivl.mem_of_btwn ((le_max_left _ _).trans_lt h1) h2)) (not_lt.2 ((le_max_right _ _).trans h1.le))
    have ho : m.b < 0 ∨ m.ro = true := by
      by_contra hc
      rw [not_or] at hc
      have e : m.b = 0 := le_antisymm hb (not_lt.1 hc.1)
      have : m.Mem 0 := by
        unfold Ivl.Mem
        rw [if_neg hc.2, e]
        have ha : m.a < 0 := by rw [← e]; exact w.1
        exact ⟨by split; exacts [ha, ha.le], le_rfl⟩
      exact absurd (hn 0 this) (lt_irrefl _)
    have ha : ¬(0 ≤ m.a ∧ m.a < m.b) := fun h => absurd (h.1.trans_lt w.1) (not_lt.2 hb)
    have lt : (if m.b < 0 then ((m.b.toReal⁻¹ : ℝ) : EReal) else ⊥) < (if m.a = ⊥ then (0 : EReal) else ((m.a.toReal⁻¹ : ℝ) : EReal)) := by
      have ha0 : m.a < 0 := w.1.trans_le hb
      have hbb : m.b ≠ ⊥ := (bot_le.trans_lt w.1).ne'
      have neg : ∀ x : EReal, x < 0 → x ≠ ⊥ → x.toReal < 0 := by
        intro x h1 h2
        have h3 : x ≠ ⊤ := (h1.trans_le le_top).ne
        lift x to ℝ using ⟨h3, h2⟩
        rw [EReal.toReal_coe]; exact_mod_cast h1
      by_cases hab : m.a = ⊥
      · rw [if_pos hab]
        split
        · rename_i h0
          exact_mod_cast inv_lt_zero.2 (neg _ h0 hbb)
        · exact EReal.bot_lt_zero
      · rw [if_neg hab]
        split
        · rename_i h0
          have p2 : m.a.toReal < m.b.toReal := ereal_toReal_lt hab w.1 (h0.trans_le le_top).ne
          have := (inv_lt_inv_of_neg (neg _ h0 hbb) (neg _ ha0 hab)).2 p2
          exact_mod_cast this
        · exact EReal.bot_lt_coe _
    refine ⟨_, ?_, mkIvl_wf (mkIvl_eq (lo := m.ro) (ro := m.lo) lt)⟩
    unfold recipInterval
    rw [if_neg ha, if_pos ⟨w.1, hb⟩, if_pos ho]
    simp only [transformInterval, if_true, mkIvl_eq lt, bind, Except.bind]

theorem recip_and_one (c : Ctx) {u : Un EReal} (h2 : u.atoms = none) (h3 : u.intervals.Perm [negOpen, posOpen]) (y : EReal) :
    SSet.and c.σ (.un u) (.pc (.fin {y})) = .ok .empty ∨ (y ≠ 0 ∧ SSet.and c.σ (.un u) (.pc (.fin {y})) = .ok (.pc (.fin {y}))) := by
  have fl : ∀ j : Ivl EReal, finOrEmpty (({y} : Finset EReal).filter (fun v => j.has v)) = if j.has y = true then .pc (.fin {y}) else .empty := by
    intro j
    by_cases h : j.has y = true
    · rw [if_pos h, Finset.filter_true_of_mem (by simpa using h)]; simp [finOrEmpty]
    · rw [if_neg h, Finset.filter_false_of_mem (by simpa using h)]; simp [finOrEmpty]
  have key : ∀ x z, u.intervals = [x, z] → SSet.and c.σ (.un u) (.pc (.fin {y})) =
      finishAnd c.σ .empty ([if x.has y = true then .pc (.fin {y}) else .empty, if z.has y = true then .pc (.fin {y}) else .empty].filter (fun s => !s.isEmpty)) := by
    intro x z h1
    simp only [SSet.and, Un.andPiece, h2, andOptFin, h1, List.mapM_cons, List.mapM_nil, Piece.and, bind, Except.bind, pure, Except.pure, fl]
  have n0 : negOpen.has y = true → y < 0 := fun h => ((Ivl.has_iff _ _).1 h).2
  have p0 : posOpen.has y = true → 0 < y := fun h => ((Ivl.has_iff _ _).1 h).1
  have both : ∀ x z : Ivl EReal, (x = negOpen ∧ z = posOpen ∨ x = posOpen ∧ z = negOpen) → u.intervals = [x, z] →
      SSet.and c.σ (.un u) (.pc (.fin {y})) = .ok .empty ∨ (y ≠ 0 ∧ SSet.and c.σ (.un u) (.pc (.fin {y})) = .ok (.pc (.fin {y}))) := by
    intro x z hxz h1
    have hx : x.has y = true → y ≠ 0 := by
      rcases hxz with ⟨rfl, rfl⟩ | ⟨rfl, rfl⟩
      · exact fun h => (n0 h).ne
      · exact fun h => (p0 h).ne'
    have hz : z.has y = true → y ≠ 0 := by
      rcases hxz with ⟨rfl, rfl⟩ | ⟨rfl, rfl⟩
      · exact fun h => (p0 h).ne'
      · exact fun h => (n0 h).ne
    have hxz' : ¬(x.has y = true ∧ z.has y = true) := by
      rcases hxz with ⟨rfl, rfl⟩ | ⟨rfl, rfl⟩
      · exact fun h => absurd (n0 h.1) (not_lt.2 (p0 h.2).le)
      · exact fun h => absurd (n0 h.2) (not_lt.2 (p0 h.1).le)
    rw [key x z h1]
    by_cases e1 : x.has y = true
    · have e2 : ¬ z.has y = true := fun e2 => hxz' ⟨e1, e2⟩
      right
      rw [if_pos e1, if_neg e2]
      exact ⟨hx e1, rfl⟩
    · by_cases e2 : z.has y = true
      · right
        rw [if_neg e1, if_pos e2]
        exact ⟨hz e2, rfl⟩
      · left
        rw [if_neg e1, if_neg e2]; rfl
  rcases perm_two h3 with h | h
  · exact both _ _ (.inl ⟨rfl, rfl⟩) h
  · exact both _ _ (.inr ⟨rfl, rfl⟩) h

theorem Tr.recip_step {c : Ctx} (t : Tr) {r V : SSet EReal} (h1 : recipRange c = .ok r) {m : Ivl EReal} (hm : Signed m) (ha : SSet.and c.σ r V = .ok (.pc (.ivl m))) :
    ∃ j : Ivl EReal, j.WF ∧ ∀ n, (Tr.recip t).invert c (n + 1) V = t.invert c n (.pc (.ivl j)) := by
  obtain ⟨j, g1, g2⟩ := recipInterval_total hm
  refine ⟨j, g2, fun n => ?_⟩
  simp only [Tr.invert, Tr.range, h1, bind, Except.bind, ha]
  rw [Tr.invertStep_ivl (t := .recip t) trivial]
  simp only [Tr.intervalPre, g1, bind, Except.bind, Tr.sub]

/-- Inversion of `1/t` returns on every flat set. -/
theorem Tr.recip_invert {c : Ctx} (hc : c.Correct) (hl : c.Linear) {k : String} {t : Tr} (h : t.Chain k) {V : SSet EReal} (hV : V.Flat) :
    ∃ N T, RealOK T ∧ (Tr.recip t).invert c N V = .ok T := by
  obtain ⟨u, h1, h2, h3⟩ := recipRange_un c
  have none : ∀ W, SSet.and c.σ (.un u) W = .ok .empty → (Tr.recip t).invert c 1 W = .ok .empty := by
    intro W hW
    simp only [Tr.invert, Tr.range, h1, bind, Except.bind, hW]; rfl
  have one : ∀ {i : Ivl EReal}, Signed i → ∃ N T, T.Flat ∧ (Tr.recip t).invert c N (.pc (.ivl i)) = .ok T := by
    intro i hi
    obtain ⟨S, g1, -, g3⟩ := recip_and_ivl c h2 h3 hi.1
    rcases g3 hi with rfl | ⟨m, rfl, hm⟩
    · exact ⟨1, .empty, .empty, none _ g1⟩
    · obtain ⟨j, hj, e⟩ := Tr.recip_step t h1 hm g1
      obtain ⟨N, T, hT, h4⟩ := h.invert hc hl _ (.ivl hj)
      exact ⟨N + 1, T, hT, by rw [e]; exact h4⟩
  cases hV with
  | empty => exact ⟨1, .empty, ⟨trivial, trivial, trivial⟩, none _ rfl⟩
  | @one y =>
    rcases recip_and_one c h2 h3 y with g | ⟨h0, g⟩
    · exact ⟨1, .empty, ⟨trivial, trivial, trivial⟩, none _ g⟩
    · have hF : ∃ F, (Tr.recip t).finv c y = .ok F ∧ F.Flat := by
        rw [Tr.finv]
        exact ifInRange_flat h1 (recipRange_spec h1).1 (F := .pc (.fin {((y.toReal⁻¹ : ℝ) : EReal)})) .one (by rw [if_neg h0])
      obtain ⟨F, g1, g2⟩ := hF
      obtain ⟨xs, h6, h7⟩ := iterUnion_one (c := c) (f := fun y => (Tr.recip t).finv c y) g1 (flat_or_self g2 _)
      obtain ⟨N, T, hT, h8⟩ := h.invert hc hl F g2
      refine ⟨N + 1, T, hT.wf, ?_⟩
      simp only [Tr.invert, Tr.range, h1, bind, Except.bind, g]
      rw [Tr.invertStep_fin (t := .recip t) trivial]
      simp only [h6, h7, bind, Except.bind]
      exact h8
  | @ivl i hi =>
    obtain ⟨S, g1, g2, -⟩ := recip_and_ivl c h2 h3 hi
    rcases g2 with rfl | ⟨m, rfl, hm⟩ | ⟨w, rfl, w1, w2⟩
    · exact ⟨1, .empty, ⟨trivial, trivial, trivial⟩, none _ g1⟩
    · obtain ⟨j, hj, e⟩ := Tr.recip_step t h1 hm g1
      obtain ⟨N, T, hT, h4⟩ := h.invert hc hl _ (.ivl hj)
      exact ⟨N + 1, T, hT.wf, by rw [e]; exact h4⟩
    · obtain ⟨N, xs, k1, k2, k3⟩ := mapM_some (f := fun n p => Tr.invert c n (.recip t) (.pc p)) (P := SSet.Flat)
        (fun n m p hnm => Tr.invert_le hnm (.recip t) _) w.args (fun p hp => by
          obtain ⟨m, rfl, hm⟩ := w2 p hp
          exact one hm)
      have hx : xs ≠ [] := by intro h; rw [h] at k2; exact w1 (List.length_eq_zero_iff.1 k2.symm)
      obtain ⟨r, h4, h5⟩ := reduceM_total (fun a b ha hb => real_or c.σ a b ha hb) hx (fun x hx => (k3 x hx).wf)
      refine ⟨N + 1, r, h5, ?_⟩
      rw [Tr.invert]
      simp only [Tr.range, h1, bind, Except.bind, g1]
      rw [Tr.invertStep_un]
      simp only [k1, bind, Except.bind]
      exact h4

/-! ## Comparisons -/

theorem Tr.Hyper.invert {c : Ctx} (hc : c.Correct) (hl : c.Linear) {k : String} {t : Tr} (h : t.Hyper k) :
    ∀ V : SSet EReal, V.Flat → ∃ N T, RealOK T ∧ t.invert c N V = .ok T := by
  have go : ∀ {t j}, t.Unary → StepOK c t j → (∀ V : SSet EReal, V.Flat → ∃ N S, RealOK S ∧ t.sub.invert c N V = .ok S) →
      ∀ V : SSet EReal, V.Flat → ∃ N S, RealOK S ∧ t.invert c N V = .ok S := by
    intro t j hu ho ih V hV
    rcases Tr.step hu ho hV with h | ⟨V2, h1, h2⟩
    · exact ⟨1, .empty, ⟨trivial, trivial, trivial⟩, h 0⟩
    · obtain ⟨N, S, hS, h4⟩ := ih V2 h1
      exact ⟨N + 1, S, hS, by rw [h2]; exact h4⟩
  induction h with
  | recip h => exact fun V hV => Tr.recip_invert hc hl h hV
  | @radical t n ht hn ih => exact go (t := .radical t n) trivial (stepOK_radical c t hn) ih
  | @exp t b ht hb ih => exact go (t := .exp t b) trivial (stepOK_exp c t hb) ih
  | @log t b ht hb ih => exact go (t := .log t b) trivial (stepOK_log c t hb) ih
  | @poly t p q ht hq ih => exact go (t := .poly t [p, q]) trivial (stepOK_poly hc hl t hq) ih

theorem Tr.Hyper.symbols {k : String} {t : Tr} (h : t.Hyper k) : t.symbols = {k} := by
  induction h with
  | recip h => simp [Tr.symbols, h.symbols]
  | radical _ _ ih => simpa [Tr.symbols] using ih
  | exp _ _ ih => simpa [Tr.symbols] using ih
  | log _ _ ih => simpa [Tr.symbols] using ih
  | poly _ _ ih => simpa [Tr.symbols] using ih

theorem Tr.Hyper.made {c : Ctx} {k : String} {t : Tr} (h : t.Hyper k) : t.Made c := by
  induction h with
  | recip h => exact .recip h.made
  | radical _ h ih => exact .radical ih h
  | exp _ h ih => exact .exp ih h
  | log _ h ih => exact .log ih h
  | poly _ h ih => exact .poly ih (by simp)

theorem Ev.PeakLit.inv {c : Ctx} (hc : c.Correct) (hl : c.Linear) {k : String} {e : Ev} (h : e.PeakLit k) :
    ∃ N S, RealOK S ∧ Ev.invert c N e (.pc (.fin {1})) = .ok S := by
  have ivl : ∀ {t : Tr} {i : Ivl EReal}, (∃ N S, RealOK S ∧ t.invert c N (.pc (.ivl i)) = .ok S) → ∃ N S, RealOK S ∧ Ev.invert c N (.ivl t i) (.pc (.fin {1})) = .ok S := by
    rintro t i ⟨N, S, hS, h1⟩
    obtain ⟨xs, h4, h5⟩ := iterUnion_one (c := c) (y := 1) (f := fun y => Ev.finvReal c (.pc (.ivl i)) y) (X := .pc (.ivl i)) (by simp [Ev.finvReal]) (ivl_or_self _ _)
    refine ⟨N + 1, S, hS, ?_⟩
    rw [Ev.invert]
    simp only [bool_and_one, bind, Except.bind, Ev.invertFinite, h4, h5]
    exact h1
  cases h with
  | chain h =>
    obtain ⟨t, V, ht, h⟩ := h.of
    obtain ⟨N, S, hS, h1⟩ := h.inv hc hl ht
    exact ⟨N, S, hS.wf, h1⟩
  | @ivl t i ht hi => exact ivl (ht.invert hc hl i hi)
  | @hyper t i ht hi => exact ivl (ht.invert hc hl _ (.ivl hi))
  | @one t y ht =>
    obtain ⟨N, S, hS, h1⟩ := ht.invert hc hl _ (.one (y := y))
    obtain ⟨xs, h4, h5⟩ := iterUnion_one (c := c) (y := 1) (f := fun z => Ev.finvReal c (.pc (.fin {y})) z) (X := .pc (.fin {y})) (by simp [Ev.finvReal]) (fin_or_self _ _)
    refine ⟨N + 1, S, hS, ?_⟩
    rw [Ev.invert]
    simp only [bool_and_one, bind, Except.bind, Ev.invertFinite, optFin, h4, h5]
    exact h1

theorem Ev.PeakLit.symbols {k : String} {e : Ev} (h : e.PeakLit k) : e.symbols = {k} := by
  cases h with
  | chain h => exact h.symbols
  | ivl h => simp [Ev.symbols, h.symbols]
  | hyper h => simp [Ev.symbols, h.symbols]
  | one h => simp [Ev.symbols, h.symbols]

theorem Ev.PeakLit.made {c : Ctx} {k : String} {e : Ev} (h : e.PeakLit k) : e.Made c := by
  cases h with
  | chain h => exact h.made
  | ivl h hi => exact .ivl h.made hi
  | hyper h hi => exact .ivl h.made hi
  | @one _ y h => exact .fin h.made (by intro s hs; cases hs; exact ⟨y, by simp⟩)

theorem Ev.PeakDnf.inv {c : Ctx} (hc : c.Correct) (hl : c.Linear) {k : String} {e : Ev} (h : e.PeakDnf k) :
    ∃ N S, Ev.invert c N e (.pc (.fin {1})) = .ok S := by
  have part : ∀ {e : Ev}, (e.PeakLit k ∨ e.ChainAnd k) → ∃ N S, RealOK S ∧ Ev.invert c N e (.pc (.fin {1})) = .ok S := by
    intro e h
    rcases h with h | h
    · exact h.inv hc hl
    · obtain ⟨N, S, hS, h⟩ := h.inv hc hl
      exact ⟨N, S, hS.wf, h⟩
  cases h with
  | lit h => obtain ⟨N, S, -, h⟩ := part (.inl h); exact ⟨N, S, h⟩
  | conj h => obtain ⟨N, S, -, h⟩ := part (.inr h); exact ⟨N, S, h⟩
  | @or es hne h =>
    obtain ⟨N, xs, h1, h2, h3⟩ := mapM_some (f := fun n e => Ev.invert c n e (.pc (.fin {1}))) (P := RealOK)
      (fun n m e hnm => Ev.invert_le' n m e hnm _) es (fun e he => part (h e he))
    have hx : xs ≠ [] := by intro h; rw [h] at h2; exact hne (List.length_eq_zero_iff.1 h2.symm)
    obtain ⟨r, h4, h5⟩ := reduceM_total (fun a b ha hb => real_or c.σ a b ha hb) hx h3
    refine ⟨N + 1, r, ?_⟩
    rw [Ev.invert]
    simp only [bool_and_one, bind, Except.bind, Ev.invertFinite, h1]
    exact h4

theorem Ev.PeakDnf.symbols {k : String} {e : Ev} (h : e.PeakDnf k) : e.symbols = {k} := by
  cases h with
  | lit h => exact h.symbols
  | conj h => exact h.symbols
  | or hne h => rw [Ev.symbols]; exact symbolsL_const hne (fun e he => (h e he).elim (·.symbols) (·.symbols))

theorem Ev.PeakDnf.made {c : Ctx} {k : String} {e : Ev} (h : e.PeakDnf k) : e.Made c := by
  cases h with
  | lit h => exact h.made
  | conj h => exact h.made
  | or hne h => exact .or hne (fun e he => (h e he).elim (·.made) (·.made))

theorem Ev.PeakDnf.solve {c : Ctx} (hc : c.Correct) (hl : c.Linear) {k : String} {e : Ev} (h : e.PeakDnf k) : ∃ N S, e.solve c N = .ok S := by
  obtain ⟨N, S, h1⟩ := h.inv hc hl
  have hs := h.symbols
  unfold Ev.solve
  split
  · exact ⟨0, _, rfl⟩
  · exact ⟨0, _, rfl⟩
  · exact ⟨0, _, rfl⟩
  · refine ⟨N, S, ?_⟩
    rw [if_neg (by simp [hs])]; exact h1

end Sppl
