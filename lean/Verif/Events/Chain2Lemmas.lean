import Verif.Events.ChainLemmas

set_option linter.all false

/-!
# One step of the inversion (helper lemmas)
-/

namespace Sppl
open Classical

/-! ## Real points of intervals -/

theorem Ivl.mem_of_btwn {i : Ivl EReal} {x : EReal} (h1 : i.a < x) (h2 : x < i.b) : i.Mem x := by
  unfold Ivl.Mem
  constructor
  · split <;> simp [h1, h1.le]
  · split <;> simp [h2, h2.le]

theorem two_btwn {a b : EReal} (h : a < b) : ∃ x y : ℝ, x < y ∧ a < (x : EReal) ∧ (y : EReal) < b := by
  obtain ⟨x, h1, h2⟩ := EReal.lt_iff_exists_real_btwn.1 h
  obtain ⟨y, h3, h4⟩ := EReal.lt_iff_exists_real_btwn.1 h2
  exact ⟨x, y, by exact_mod_cast h3, h1, h4⟩

theorem Ivl.WF.two {i : Ivl EReal} (hi : i.WF) : ∃ x y : ℝ, x < y ∧ i.Mem x ∧ i.Mem y := by
  obtain ⟨x, y, h, h1, h2⟩ := two_btwn hi.1
  have h' : (x : EReal) < y := by exact_mod_cast h
  exact ⟨x, y, h, Ivl.mem_of_btwn h1 (h'.trans h2), Ivl.mem_of_btwn (h1.trans h') h2⟩

theorem Ivl.WF.two_pos {i : Ivl EReal} (hi : i.WF) {u : ℝ} (hu : 0 < u) (hm : i.Mem u) : ∃ x y : ℝ, x < y ∧ 0 < x ∧ i.Mem x ∧ i.Mem y := by
  have hb : (0 : EReal) < i.b := lt_of_lt_of_le (by exact_mod_cast hu) hm.le.2
  obtain ⟨x, y, h, h1, h2⟩ := two_btwn (max_lt hi.1 hb)
  have h' : (x : EReal) < y := by exact_mod_cast h
  obtain ⟨h3, h4⟩ := max_lt_iff.1 h1
  exact ⟨x, y, h, by exact_mod_cast h4, Ivl.mem_of_btwn h3 (h'.trans h2), Ivl.mem_of_btwn (h3.trans h') h2⟩

theorem Ivl.WF.left_nonneg {i : Ivl EReal} (hi : i.WF) (h : ∀ z, i.Mem z → 0 ≤ z) : 0 ≤ i.a := by
  by_contra hc
  push Not at hc
  obtain ⟨x, y, hxy, h1, h2⟩ := two_btwn (lt_min hc hi.1)
  have h' : (x : EReal) < y := by exact_mod_cast hxy
  obtain ⟨h3, h4⟩ := lt_min_iff.1 h2
  exact absurd (h x (Ivl.mem_of_btwn h1 (h'.trans h4))) (not_le.2 (h'.trans h3))

theorem EReal.real_of_ne {x : EReal} (h1 : x ≠ ⊥) (h2 : x ≠ ⊤) : ∃ y : ℝ, x = (y : EReal) := ⟨x.toReal, (EReal.coe_toReal h2 h1).symm⟩

/-! ## `finv` on the bounds -/

theorem ifInRange_ext (c : Ctx) (y : EReal) (k : Res (SSet EReal)) : ifInRange (extReals c) y k = k := by
  obtain ⟨r, h1, -⟩ := extReals_rng c
  obtain ⟨g, hm⟩ := extReals_spec h1
  obtain ⟨b, h2, h3⟩ := contains_goodR g y
  have : b = true := h3.2 (hm y)
  subst this
  simp [ifInRange, h1, h2, bind, Except.bind]

theorem ifInRange_pos (c : Ctx) {y : EReal} (hy : 0 ≤ y) (k : Res (SSet EReal)) : ifInRange (extRealsPos c) y k = k := by
  obtain ⟨r, h1, -⟩ := extRealsPos_rng c
  obtain ⟨g, hm⟩ := extRealsPos_spec h1
  obtain ⟨b, h2, h3⟩ := contains_goodR g y
  have : b = true := h3.2 ((hm y).2 hy)
  subst this
  simp [ifInRange, h1, h2, bind, Except.bind]

theorem firstElem_one (c : Ctx) (x : EReal) : firstElem c (.pc (.fin {x})) = .ok x := by
  have h := c.mem_iter {x}
  unfold firstElem
  cases he : c.iter {x} with
  | nil => have := (h x).2 (by simp); rw [he] at this; simp at this
  | cons y l => have := (h y).1 (by rw [he]; simp); simp at this; subst this; simp only [he]

theorem injInterval_total {c : Ctx} {t : Tr} {i : Ivl EReal} {a b : EReal} (ha : t.finv c i.a = .ok (.pc (.fin {a}))) (hb : t.finv c i.b = .ok (.pc (.fin {b}))) (hab : a < b) :
    ∃ m, injInterval c t i = .ok (.pc (.ivl m)) ∧ m.WF := by
  obtain ⟨m, hm⟩ : ∃ m, mkIvl a b i.lo i.ro = .ok m := ⟨_, if_pos hab⟩
  exact ⟨m, by simp [injInterval, ha, hb, firstElem_one, transformInterval, hm, bind, Except.bind], mkIvl_wf hm⟩

theorem radical_total (c : Ctx) (t : Tr) {n : ℕ} (hn : n ≠ 0) {i : Ivl EReal} (hi : i.WF) (hp : ∀ z, i.Mem z → 0 ≤ z) :
    ∃ m, injInterval c (.radical t n) i = .ok (.pc (.ivl m)) ∧ m.WF := by
  have h0 := hi.left_nonneg hp
  have hb : 0 ≤ i.b := h0.trans hi.1.le
  obtain ⟨a, ha⟩ := EReal.real_of_ne (x := i.a) (fun h => by rw [h] at h0; simp at h0) hi.1.ne_top
  have ha0 : 0 ≤ a := by rw [ha] at h0; exact_mod_cast h0
  have e1 : (Tr.radical t n).finv c i.a = .ok (.pc (.fin {((a ^ n : ℝ) : EReal)})) := by
    rw [Tr.finv, ifInRange_pos c h0, ha, if_neg (EReal.coe_ne_top _)]; rfl
  by_cases hbt : i.b = ⊤
  · refine injInterval_total e1 (b := ⊤) ?_ (EReal.coe_lt_top _)
    rw [Tr.finv, ifInRange_pos c hb, if_pos hbt]
  · obtain ⟨b, hbr⟩ := EReal.real_of_ne (x := i.b) (fun h => by rw [h] at hb; simp at hb) hbt
    have hab : a < b := by have := hi.1; rw [ha, hbr] at this; exact_mod_cast this
    refine injInterval_total e1 (b := ((b ^ n : ℝ) : EReal)) ?_ ?_
    · rw [Tr.finv, ifInRange_pos c hb, hbr, if_neg (EReal.coe_ne_top _)]; rfl
    · exact_mod_cast pow_lt_pow_left₀ hab ha0 hn

theorem exp_total (c : Ctx) (t : Tr) {e : ℝ} (he : 1 < e) {i : Ivl EReal} (hi : i.WF) (hp : ∀ z, i.Mem z → 0 ≤ z) :
    ∃ m, injInterval c (.exp t e) i = .ok (.pc (.ivl m)) ∧ m.WF := by
  have h0 := hi.left_nonneg hp
  have hb0 : 0 < i.b := h0.trans_lt hi.1
  have hb : 0 ≤ i.b := hb0.le
  obtain ⟨a, ha⟩ := EReal.real_of_ne (x := i.a) (fun h => by rw [h] at h0; simp at h0) hi.1.ne_top
  have ha0 : 0 ≤ a := by rw [ha] at h0; exact_mod_cast h0
  obtain ⟨a', e1, h1, h2⟩ : ∃ a' : EReal, (Tr.exp t e).finv c i.a = .ok (.pc (.fin {a'})) ∧ a' < ⊤ ∧ (a' = ⊥ ∨ (0 < a ∧ a' = ((Real.logb e a : ℝ) : EReal))) := by
    by_cases hz : i.a ≤ 0
    · exact ⟨⊥, by rw [Tr.finv, ifInRange_pos c h0, if_neg hi.1.ne_top, if_pos hz], bot_lt_top, .inl rfl⟩
    · refine ⟨_, ?_, EReal.coe_lt_top _, .inr ⟨?_, rfl⟩⟩
      · rw [Tr.finv, ifInRange_pos c h0, if_neg hi.1.ne_top, if_neg hz, if_neg he.ne', ha]; rfl
      · rw [ha] at hz; exact_mod_cast not_le.1 hz
  by_cases hbt : i.b = ⊤
  · refine injInterval_total e1 (b := ⊤) ?_ h1
    rw [Tr.finv, ifInRange_pos c hb, if_pos hbt]
  · obtain ⟨b, hbr⟩ := EReal.real_of_ne (x := i.b) (fun h => by rw [h] at hb; simp at hb) hbt
    have hab : a < b := by have := hi.1; rw [ha, hbr] at this; exact_mod_cast this
    refine injInterval_total e1 (b := ((Real.logb e b : ℝ) : EReal)) ?_ ?_
    · rw [Tr.finv, ifInRange_pos c hb, if_neg hbt, if_neg (not_le.2 hb0), if_neg he.ne', hbr]; rfl
    · rcases h2 with rfl | ⟨h2, rfl⟩
      · exact EReal.bot_lt_coe _
      · exact_mod_cast Real.logb_lt_logb he h2 hab

theorem log_total (c : Ctx) (t : Tr) {e : ℝ} (he : 1 < e) {i : Ivl EReal} (hi : i.WF) :
    ∃ m, injInterval c (.log t e) i = .ok (.pc (.ivl m)) ∧ m.WF := by
  have hpos : (0 : ℝ) < e := by linarith
  obtain ⟨a', e1, h1, h2⟩ : ∃ a' : EReal, (Tr.log t e).finv c i.a = .ok (.pc (.fin {a'})) ∧ a' < ⊤ ∧
      ((a' = 0) ∨ ∃ a : ℝ, i.a = a ∧ a' = ((e ^ a : ℝ) : EReal)) := by
    by_cases hz : i.a = ⊥
    · exact ⟨0, by rw [Tr.finv, ifInRange_ext, if_neg hi.1.ne_top, if_pos hz], EReal.zero_lt_top, .inl rfl⟩
    · obtain ⟨a, ha⟩ := EReal.real_of_ne (x := i.a) hz hi.1.ne_top
      exact ⟨_, by rw [Tr.finv, ifInRange_ext, if_neg hi.1.ne_top, if_neg hz, ha]; rfl, EReal.coe_lt_top _, .inr ⟨a, ha, rfl⟩⟩
  by_cases hbt : i.b = ⊤
  · refine injInterval_total e1 (b := ⊤) ?_ h1
    rw [Tr.finv, ifInRange_ext, if_pos hbt]
  · have hbb : i.b ≠ ⊥ := fun h => not_lt_bot (h ▸ hi.1)
    obtain ⟨b, hbr⟩ := EReal.real_of_ne (x := i.b) hbb hbt
    refine injInterval_total e1 (b := ((e ^ b : ℝ) : EReal)) ?_ ?_
    · rw [Tr.finv, ifInRange_ext, if_neg hbt, if_neg hbb, hbr]; rfl
    · rcases h2 with rfl | ⟨a, ha, rfl⟩
      · exact_mod_cast Real.rpow_pos_of_pos hpos b
      · have hab : a < b := by have := hi.1; rw [ha, hbr] at this; exact_mod_cast this
        exact_mod_cast (Real.rpow_lt_rpow_left_iff he).2 hab

/-- Half lines answered by the solver are intervals, and so are their complements. -/
theorem linear_ineq {c : Ctx} (hl : c.Linear) {p q : ℝ} (hq : q ≠ 0) {b : EReal} (hb : b ≠ ⊥) (st : Bool) (hst : b = ⊤ → st = true) :
    ∃ i : Ivl EReal, solvePolyIneq c [p, q] b st = .ok (.pc (.ivl i)) ∧ i.WF ∧ (b ≠ ⊤ → ∃ j : Ivl EReal, SSet.invert c.σ (.pc (.ivl i)) = .ok (.pc (.ivl j)) ∧ j.WF) := by
  unfold solvePolyIneq
  rw [if_neg hb]
  by_cases ht : b = ⊤
  · rw [if_pos ht, hst ht]
    exact ⟨⟨⊥, ⊤, true, true⟩, by simp [SSet.or, SSet.reals], SSet.wf_reals, fun h => absurd ht h⟩
  · rw [if_neg ht]
    rcases lt_or_gt_of_ne hq with h | h
    · refine ⟨_, hl.neg _ _ _ _ h, ⟨EReal.coe_lt_top _, fun h => absurd h (EReal.coe_ne_bot _), by simp⟩, fun _ => ?_⟩
      obtain ⟨j, hj⟩ : ∃ j, mkIvl ⊥ (((b.toReal - p) / q : ℝ) : EReal) false (!st) = .ok j := ⟨_, if_pos (EReal.bot_lt_coe _)⟩
      refine ⟨j, ?_, mkIvl_wf hj⟩
      simp only [SSet.invert, Piece.invert, Ivl.invert]
      rw [if_neg (EReal.coe_ne_bot _), if_pos trivial, hj]; rfl
    · refine ⟨_, hl.pos _ _ _ _ h, ⟨EReal.bot_lt_coe _, by simp, fun h => absurd h (EReal.coe_ne_top _)⟩, fun _ => ?_⟩
      obtain ⟨j, hj⟩ : ∃ j, mkIvl (((b.toReal - p) / q : ℝ) : EReal) ⊤ (!st) false = .ok j := ⟨_, if_pos (EReal.coe_lt_top _)⟩
      refine ⟨j, ?_, mkIvl_wf hj⟩
      simp only [SSet.invert, Piece.invert, Ivl.invert]
      rw [if_pos trivial, if_neg (EReal.coe_ne_top _), hj]; rfl

theorem polyVal_inv {p q : ℝ} (hq : q ≠ 0) (u : ℝ) : polyVal [p, q] ((u - p) / q) = u := by
  rw [polyVal_linear]; field_simp; ring

theorem poly_total {c : Ctx} (hc : c.Correct) (hl : c.Linear) {p q : ℝ} (hq : q ≠ 0) {i : Ivl EReal} (hi : i.WF) :
    ∃ m, polyInterval c [p, q] i = .ok (.pc (.ivl m)) ∧ m.WF := by
  have hbb : i.b ≠ ⊥ := fun h => not_lt_bot (h ▸ hi.1)
  obtain ⟨ib, h1, w1, -⟩ := linear_ineq hl hq hbb i.ro hi.2.2 (p := p)
  obtain ⟨a, na, h2, h3, w2⟩ : ∃ a, ∃ na : Ivl EReal, solvePolyIneq c [p, q] i.a (!i.lo) = .ok a ∧ SSet.invert c.σ a = .ok (.pc (.ivl na)) ∧ na.WF := by
    by_cases ha : i.a = ⊥
    · refine ⟨.empty, ⟨⊥, ⊤, true, true⟩, by unfold solvePolyIneq; rw [if_pos ha], ?_, SSet.wf_reals⟩
      simp [SSet.invert, mkIvl, bind, Except.bind]
    · obtain ⟨ia, g1, g2, g3⟩ := linear_ineq hl hq ha (!i.lo) (fun h => absurd h hi.1.ne_top) (p := p)
      obtain ⟨j, g4, g5⟩ := g3 hi.1.ne_top
      exact ⟨_, j, g1, g4, g5⟩
  have e : polyInterval c [p, q] i = Ivl.and ib na := by
    simp only [polyInterval, h1, h2, h3, bind, Except.bind]; rfl
  obtain ⟨S, hS, w, -, -, h5⟩ := Ivl.and_spec ib na w1 w2
  obtain ⟨-, hd⟩ := polyInterval_spec hc (e.trans hS)
  obtain ⟨y, z, hyz, hy, hz⟩ := hi.two
  have k : ∀ u : ℝ, i.Mem u → ib.Mem (((u - p) / q : ℝ) : EReal) ∧ na.Mem (((u - p) / q : ℝ) : EReal) := by
    intro u hu
    rw [← h5, hd, polyVal_inv hq]; exact hu
  rcases lt_or_gt_of_ne hq with h | h
  · have : (z - p) / q < (y - p) / q := (div_lt_div_right_of_neg h).2 (by linarith)
    obtain ⟨m, g1, g2, -⟩ := Ivl.and_two w1 w2 this (k z hz) (k y hy)
    exact ⟨m, e.trans g1, g2⟩
  · have : (y - p) / q < (z - p) / q := (div_lt_div_iff_of_pos_right h).2 (by linarith)
    obtain ⟨m, g1, g2, -⟩ := Ivl.and_two w1 w2 this (k y hy) (k z hz)
    exact ⟨m, e.trans g1, g2⟩

end Sppl
