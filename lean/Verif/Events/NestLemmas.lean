import Verif.Events.HyperLemmas

set_option linter.all false

/-!
# A conjunction that raises (helper lemmas)
-/

namespace Sppl
open Classical

theorem and_full {i : Ivl EReal} (hi : i.WF) : Ivl.and fullIvl i = .ok (.pc (.ivl i)) := by
  obtain ⟨a, b, lo, ro⟩ := i
  obtain ⟨h1, h2, h3⟩ := hi
  dsimp only at h1 h2 h3
  have hat : a ≠ ⊤ := (h1.trans_le le_top).ne
  have hbb : b ≠ ⊥ := (bot_le.trans_lt h1).ne'
  have ha : fullIvl.has a = !decide (a = ⊥) := by
    rw [Bool.eq_iff_iff, Ivl.has_iff]; simp [Ivl.Mem, bot_lt_iff_ne_bot, lt_top_iff_ne_top, hat]
  have hb : fullIvl.has b = !decide (b = ⊤) := by
    rw [Bool.eq_iff_iff, Ivl.has_iff]; simp [Ivl.Mem, bot_lt_iff_ne_bot, lt_top_iff_ne_top, hbb]
  by_cases e1 : a = ⊥
  · subst e1
    have := h2 rfl; subst this
    by_cases e2 : b = ⊤
    · subst e2
      have := h3 rfl; subst this
      simp [Ivl.and]
    · have hx : (⟨⊥, b, true, ro⟩ : Ivl EReal).has ⊥ = false := by
        rw [Bool.eq_false_iff, Ne, Ivl.has_iff]; simp [Ivl.Mem]
      unfold Ivl.and
      rw [if_neg (by simp [e2]), if_neg (by simp [ha]), if_neg (by simp [hx]), if_neg (by simp [ha]), if_pos (by simp [hb, e2]), if_neg (fun h => hbb h.symm)]
      simp [mkIvl, h1, bind, Except.bind, e2]
  · by_cases e2 : b = ⊤
    · subst e2
      have := h3 rfl; subst this
      have hx : (⟨a, ⊤, lo, true⟩ : Ivl EReal).has ⊤ = false := by
        rw [Bool.eq_false_iff, Ne, Ivl.has_iff]; simp [Ivl.Mem]
      unfold Ivl.and
      rw [if_neg (by simp [e1]), if_neg (by simp [hb]), if_neg (by simp [hx]), if_pos (by simp [ha, e1]), if_neg (fun h => hat h.symm)]
      simp [mkIvl, h1, bind, Except.bind, e1]
    · unfold Ivl.and
      rw [if_neg (by simp [e1]), if_pos (by simp [ha, hb, e1, e2])]

theorem id_lit (c : Ctx) (n : ℕ) {i : Ivl EReal} (hi : i.WF) (x : String) : Ev.invert c (n + 2) (.ivl (.id x) i) (.pc (.fin {1})) = .ok (.pc (.ivl i)) := by
  obtain ⟨r, h1, h2⟩ := extReals_rng c
  obtain ⟨xs, h4, h5⟩ := iterUnion_one (c := c) (y := 1) (f := fun y => Ev.finvReal c (.pc (.ivl i)) y) (X := .pc (.ivl i)) (by simp [Ev.finvReal]) (ivl_or_self _ _)
  have h3 : SSet.and c.σ r (.pc (.ivl i)) = .ok (.pc (.ivl i)) := by rw [rng_and_ivl c.σ h2 full_wf hi]; exact and_full hi
  rw [Ev.invert]
  simp only [bool_and_one, bind, Except.bind, Ev.invertFinite, h4, h5]
  rw [Tr.invert]
  simp only [Tr.range, h1, bind, Except.bind, h3]
  rfl

noncomputable abbrev leI : Ivl EReal := ⟨⊥, -1, true, false⟩
noncomputable abbrev geI : Ivl EReal := ⟨1, ⊤, false, true⟩
noncomputable abbrev unitI : Ivl EReal := ⟨-1, 1, false, false⟩

theorem m1_lt : (-1 : EReal) < 1 := by
  have : ((-1 : ℝ) : EReal) < ((1 : ℝ) : EReal) := by exact_mod_cast (by norm_num : (-1 : ℝ) < 1)
  simpa using this
theorem bot_lt_m1 : (⊥ : EReal) < -1 := by
  have := EReal.bot_lt_coe (-1)
  simpa using this
theorem one_lt_top' : (1 : EReal) < ⊤ := EReal.coe_lt_top 1

theorem leI_wf : leI.WF := ⟨bot_lt_m1, by simp, fun h => absurd h (m1_lt.trans one_lt_top').ne⟩
theorem geI_wf : geI.WF := ⟨one_lt_top', fun h => absurd h (bot_lt_m1.trans m1_lt).ne', by simp⟩
theorem unitI_wf : unitI.WF := ⟨m1_lt, fun h => absurd h bot_lt_m1.ne', fun h => absurd h one_lt_top'.ne⟩

theorem le_or_ge (σ : Orders EReal) : ∃ u, Ivl.or σ leI geI = .ok (.un u) ∧ u.atoms = none ∧ u.intervals.Perm [leI, geI] := by
  rcases ivl_or_two σ leI_wf geI_wf with ⟨m, h, hm⟩ | ⟨u, h1, -, h2, h3, -⟩
  · exfalso
    have ho := SSet.or_spec σ (.pc (.ivl leI)) (.pc (.ivl geI)) leI_wf trivial geI_wf trivial h
    have e : ∀ (i : Ivl EReal) z, (Val.num z ∈ (SSet.pc (.ivl i)).den) ↔ i.Mem z := fun i z => by simp
    have a1 : m.Mem (-1) := (e _ _).1 (ho.sup (.num (-1)) ⟨bot_lt_m1.ne', (m1_lt.trans one_lt_top').ne⟩ (.inl ((e _ _).2 ⟨bot_lt_m1, le_rfl⟩)))
    have a2 : m.Mem 1 := (e _ _).1 (ho.sup (.num 1) ⟨(bot_lt_m1.trans m1_lt).ne', one_lt_top'.ne⟩ (.inr ((e _ _).2 ⟨le_rfl, one_lt_top'⟩)))
    have z1 : (-1 : EReal) < 0 := by
      have : ((-1 : ℝ) : EReal) < ((0 : ℝ) : EReal) := by exact_mod_cast (by norm_num : (-1 : ℝ) < 0)
      simpa using this
    have z2 : (0 : EReal) < 1 := zero_lt_one
    have a0 : m.Mem 0 := Ivl.mem_of_btwn (a1.le.1.trans_lt z1) (z2.trans_le a2.le.2)
    have a3 := ho.sub (.num 0) ((e _ _).2 a0)
    rw [e, e] at a3
    rcases a3 with h | h
    · exact absurd h.2 (not_le.2 z1)
    · exact absurd h.1 (not_le.2 z2)
  · exact ⟨u, h1, h2, h3⟩

theorem le_and_unit : Ivl.and leI unitI = .ok (.pc (.fin {-1})) := by
  have b1 : leI.has (-1) = true := (Ivl.has_iff _ _).2 ⟨bot_lt_m1, le_rfl⟩
  have b2 : leI.has 1 = false := by rw [Bool.eq_false_iff, Ne, Ivl.has_iff]; exact fun h => absurd h.2 (not_le.2 m1_lt)
  have b3 : unitI.has ⊥ = false := by rw [Bool.eq_false_iff, Ne, Ivl.has_iff]; exact fun h => absurd h.1 (not_le.2 bot_lt_m1)
  have b4 : unitI.has (-1) = true := (Ivl.has_iff _ _).2 ⟨le_rfl, m1_lt.le⟩
  unfold Ivl.and
  rw [if_neg (by simp), if_neg (by simp [b2]), if_neg (by simp [b3]), if_pos b1, if_pos rfl, if_pos b4]

theorem ge_and_unit : Ivl.and geI unitI = .ok (.pc (.fin {1})) := by
  have b1 : geI.has 1 = true := (Ivl.has_iff _ _).2 ⟨le_rfl, one_lt_top'⟩
  have b2 : geI.has (-1) = false := by rw [Bool.eq_false_iff, Ne, Ivl.has_iff]; exact fun h => absurd h.1 (not_le.2 m1_lt)
  have b3 : unitI.has ⊤ = false := by rw [Bool.eq_false_iff, Ne, Ivl.has_iff]; exact fun h => absurd h.2 (not_le.2 one_lt_top')
  have b4 : unitI.has 1 = true := (Ivl.has_iff _ _).2 ⟨m1_lt.le, le_rfl⟩
  unfold Ivl.and
  rw [if_neg (by simp), if_neg (by simp [b2]), if_neg (by simp [b3]), if_neg (by simp [b2]), if_pos b1, if_pos rfl, if_pos b4]

theorem nested_raises (c : Ctx) (n : ℕ) : (Ev.and [.or [.ivl (.id "X") leI, .ivl (.id "X") geI], .ivl (.id "X") unitI]).solve c (n + 4) = .error .assertion := by
  obtain ⟨u, h1, h2, h3⟩ := le_or_ge c.σ
  have hor : Ev.invert c (n + 3) (.or [.ivl (.id "X") leI, .ivl (.id "X") geI]) (.pc (.fin {1})) = .ok (.un u) := by
    rw [Ev.invert]
    simp only [bool_and_one, bind, Except.bind, Ev.invertFinite, List.mapM_cons, List.mapM_nil, id_lit c n leI_wf, id_lit c n geI_wf, pure, Except.pure,
      makeUnion, reduceM, List.foldlM_cons, List.foldlM_nil, SSet.or, Piece.or, h1]
  have hand : SSet.and c.σ (.un u) (.pc (.ivl unitI)) = .error .assertion := by
    rcases perm_two h3 with h | h <;>
      (simp only [SSet.and, Un.andPiece, h2, andOptFin, h, List.mapM_cons, List.mapM_nil, Piece.and, bind, Except.bind, pure, Except.pure, le_and_unit, ge_and_unit]
       simp [SSet.isEmpty, finishAnd, mkUnion, SSet.isUnion, List.filterMap_cons])
  rw [Ev.solve, if_neg (by simp [Ev.symbols, Ev.symbolsL, Tr.symbols])]
  · rw [Ev.invert]
    simp only [bool_and_one, bind, Except.bind, Ev.invertFinite, List.mapM_cons, List.mapM_nil, hor, id_lit c (n + 1) unitI_wf, pure, Except.pure,
      makeIntersection, reduceM, List.foldlM_cons, List.foldlM_nil, hand]
  all_goals simp

/-- The operators build the event. -/
theorem nested_built (c : Ctx) : Ev.lor c (.ivl (.id "X") leI) (.ivl (.id "X") geI) = .ok (.or [.ivl (.id "X") leI, .ivl (.id "X") geI]) ∧
    Ev.land c (.or [.ivl (.id "X") leI, .ivl (.id "X") geI]) (.ivl (.id "X") unitI) = .ok (.and [.or [.ivl (.id "X") leI, .ivl (.id "X") geI], .ivl (.id "X") unitI]) := by
  obtain ⟨u, h1, h2, h3⟩ := le_or_ge c.σ
  have h1' : SSet.or c.σ (.pc (.ivl leI)) (.pc (.ivl geI)) = .ok (.un u) := h1
  constructor
  · simp [Ev.lor, Ev.simplify, Ev.basic?, Ev.values, h1', bind, Except.bind, Ev.ofSet, Ev.disjuncts]
  · simp [Ev.land, Ev.simplify, Ev.basic?, bind, Except.bind, Ev.conjuncts]

end Sppl
