import Verif.Events.PeakSpec
import Verif.Events.Chain4Lemmas

set_option linter.all false

/-!
# Inverting expressions with an absolute value (helper lemmas)
-/

namespace Sppl
open Classical

theorem mkUnion_two (σ : Orders EReal) {i j : Ivl EReal} (hij : i ≠ j) {l : List (SSet EReal)} (hl : l.filterMap SSet.piece? = [.ivl i, .ivl j]) (hu : l.any SSet.isUnion = false) :
    ∃ u, mkUnion σ l = .ok (.un u) ∧ u.nominals = none ∧ u.atoms = none ∧ u.intervals.Perm [i, j] ∧ u.values.Perm [.ivl i, .ivl j] ∧ u.args = [.ivl i, .ivl j] := by
  have e1 : ([Piece.ivl i, .ivl j] : List (Piece EReal)).filterMap Piece.nom? = [] := rfl
  have e2 : ([Piece.ivl i, .ivl j] : List (Piece EReal)).filterMap Piece.fin? = [] := rfl
  have e3 : ([Piece.ivl i, .ivl j] : List (Piece EReal)).filterMap Piece.ivl? = [i, j] := rfl
  have p1 : (σ.ivls [i, j]).Perm [i, j] := by
    have := σ.ivls_perm [i, j]
    rwa [List.dedup_eq_self.2 (by simpa using hij)] at this
  have p2 : (σ.vals ((σ.ivls [i, j]).map .ivl)).Perm [.ivl i, .ivl j] := by
    have h1 := p1.map (Piece.ivl (E := EReal))
    refine (σ.vals_perm _).trans ?_
    rw [List.dedup_eq_self.2 (h1.nodup_iff.2 (by simpa using hij))]
    exact h1
  unfold mkUnion
  simp only [hu, hl, e1, e2, e3]
  rw [if_neg (by simp), if_neg (by simp), if_neg (by simp), if_neg (by simp)]
  simp only [List.map_nil, List.nil_append]
  rw [if_neg (by rw [p2.length_eq]; simp)]
  exact ⟨_, rfl, rfl, rfl, p1, p2, rfl⟩

/-- The union of two intervals: one interval, or the union of the two, which are then apart. -/
theorem ivl_or_two (σ : Orders EReal) {i j : Ivl EReal} (hi : i.WF) (hj : j.WF) :
    (∃ m, Ivl.or σ i j = .ok (.pc (.ivl m)) ∧ m.WF) ∨
    (∃ u, Ivl.or σ i j = .ok (.un u) ∧ u.nominals = none ∧ u.atoms = none ∧ u.intervals.Perm [i, j] ∧ u.values.Perm [.ivl i, .ivl j] ∧ u.args = [.ivl i, .ivl j] ∧
      ∀ z, ¬(i.Mem z ∧ j.Mem z)) := by
  obtain ⟨S, h, hw, -⟩ := real_or σ (.pc (.ivl i)) (.pc (.ivl j)) (SSet.Flat.ivl hi).wf (SSet.Flat.ivl hj).wf
  have h : Ivl.or σ i j = .ok S := h
  rw [h]
  unfold Ivl.or at h
  split_ifs at h with h1
  · cases h; exact .inl ⟨i, rfl, hi⟩
  · obtain ⟨T, hT, -, -, -, hm⟩ := Ivl.and_spec j i hj hi
    simp only [hT, bind, Except.bind] at h
    split_ifs at h with h2
    · obtain ⟨u, g, gs⟩ := mkUnion_two σ h1 (l := [.pc (.ivl i), .pc (.ivl j)]) rfl rfl
      rw [g] at h
      cases h
      obtain ⟨g1, g2, g3, g4, g5⟩ := gs
      refine .inr ⟨u, rfl, g1, g2, g3, g4, g5, fun z hz => ?_⟩
      have : T = .empty := by
        cases T <;> simp_all [SSet.isEmpty]
      rw [this] at hm
      exact absurd ((hm z).2 hz.symm) (by simp)
    · left
      unfold Ivl.merge at h
      split at h
      · simp only [bind, Except.bind] at h
        split at h
        · cases h
        · cases h; exact ⟨_, rfl, hw⟩
      · cases h

/-- `abs` computes the interval and its mirror image. -/
theorem absInterval_eq (c : Ctx) {k : Ivl EReal} (hk : k.WF) (hp : ∀ z, k.Mem z → (0 : EReal) ≤ z) :
    ∃ n : Ivl EReal, n.WF ∧ (∀ x : ℝ, n.Mem x ↔ k.Mem ((-x : ℝ) : EReal)) ∧ absInterval c k = Ivl.or c.σ k n := by
  have h1 : mkIvl k.a k.b k.lo k.ro = .ok k := mkIvl_id hk.1 hk.2.1 hk.2.2
  have hlt : -k.b < -k.a := EReal.neg_lt_neg_iff.2 hk.1
  have h2 : mkIvl (-k.b) (-k.a) k.ro k.lo = .ok ⟨-k.b, -k.a, k.ro, k.lo⟩ :=
    mkIvl_id hlt (fun h => hk.2.2 (by simpa using h)) (fun h => hk.2.1 (by simpa using h))
  refine ⟨_, mkIvl_wf h2, ?_, ?_⟩
  · intro x
    unfold Ivl.Mem
    simp only [EReal.coe_neg]
    have e1 : -k.b < (x : EReal) ↔ -(x : EReal) < k.b := EReal.neg_lt_comm
    have e2 : -k.b ≤ (x : EReal) ↔ -(x : EReal) ≤ k.b := EReal.neg_le
    have e3 : (x : EReal) < -k.a ↔ k.a < -(x : EReal) := EReal.lt_neg_comm
    have e4 : (x : EReal) ≤ -k.a ↔ k.a ≤ -(x : EReal) := EReal.le_neg
    rw [e1, e2, e3, e4]; tauto
  · simp only [absInterval, transformInterval, h1, h2, bind, Except.bind, if_true, Bool.false_eq_true, if_false]
    rfl

theorem perm_two {α : Type} {l : List α} {a b : α} (h : l.Perm [a, b]) : l = [a, b] ∨ l = [b, a] := by
  match l, h.length_eq with
  | [x, y], _ =>
    have hx : x ∈ [a, b] := h.mem_iff.1 (by simp)
    simp only [List.mem_cons, List.not_mem_nil, or_false] at hx
    rcases hx with rfl | rfl
    · have := h.cons_inv
      rw [List.singleton_perm_singleton] at this
      exact .inl (by rw [this])
    · have := (h.trans (.swap _ _ _)).cons_inv
      rw [List.singleton_perm_singleton] at this
      exact .inr (by rw [this])

noncomputable abbrev fullIvl : Ivl EReal := ⟨⊥, ⊤, true, true⟩
noncomputable abbrev posIvl : Ivl EReal := ⟨0, ⊤, false, true⟩

theorem full_mem {i : Ivl EReal} (hi : i.WF) {z : EReal} (hz : i.Mem z) : fullIvl.Mem z := by
  have h : ∀ x ∈ ({⊥, ⊤} : Finset EReal), z ≠ x := by
    rintro x hx rfl
    have h2 := hi.inf hx
    rw [(Ivl.has_iff _ _).2 hz] at h2; simp at h2
  exact ⟨bot_lt_iff_ne_bot.2 (h ⊥ (by simp)), lt_top_iff_ne_top.2 (h ⊤ (by simp))⟩

/-- What a step can do with the range and two intervals that are apart. -/
def Pair (j : Ivl EReal) (A B : SSet EReal) : Prop :=
  (j = fullIvl ∧ ∃ i k : Ivl EReal, A = .pc (.ivl i) ∧ B = .pc (.ivl k) ∧ i.WF ∧ k.WF ∧ i ≠ k) ∨
  (A = .empty ∧ B.Flat ∧ ∀ i, B = .pc (.ivl i) → ∀ z, i.Mem z → j.Mem z) ∨
  (B = .empty ∧ A.Flat ∧ ∀ i, A = .pc (.ivl i) → ∀ z, i.Mem z → j.Mem z)

theorem Pair.symm {j : Ivl EReal} {A B : SSet EReal} (h : Pair j A B) : Pair j B A := by
  rcases h with ⟨hj, i, k, h1, h2, h3, h4, h5⟩ | h | h
  · exact .inl ⟨hj, k, i, h2, h1, h4, h3, h5.symm⟩
  · exact .inr (.inr h)
  · exact .inr (.inl h)

/-- A set that a step with range `j` can invert. -/
def Fits (j : Ivl EReal) (S : SSet EReal) : Prop :=
  (S.Flat ∧ ∀ i, S = .pc (.ivl i) → ∀ z, i.Mem z → j.Mem z) ∨ ∃ u, S = .un u ∧ u.args ≠ [] ∧ ∀ p ∈ u.args, (SSet.pc p).Flat

theorem fits_two {i k j : Ivl EReal} (hi : i.WF) (hk : k.WF) {u : Un EReal} (h : u.args = [.ivl i, .ivl k]) : Fits j (.un u) := by
  refine .inr ⟨_, rfl, by simp [h], ?_⟩
  intro p hp
  rw [h] at hp
  simp only [List.mem_cons, List.not_mem_nil, or_false] at hp
  rcases hp with rfl | rfl
  · exact .ivl hi
  · exact .ivl hk

theorem flat_finish (σ : Orders EReal) {A : SSet EReal} (h : A.Flat) : finishAnd σ .empty ([A].filter (fun s => !s.isEmpty)) = .ok A := by
  cases h <;> rfl

theorem Pair.finish (σ : Orders EReal) {j : Ivl EReal} {A B : SSet EReal} (h : Pair j A B) :
    ∃ S, finishAnd σ .empty ([A, B].filter (fun s => !s.isEmpty)) = .ok S ∧ Fits j S := by
  rcases h with ⟨hj, i, k, rfl, rfl, h3, h4, h5⟩ | ⟨rfl, h1, h2⟩ | ⟨rfl, h1, h2⟩
  · obtain ⟨u, g, -, -, -, -, g5⟩ := mkUnion_two σ h5 (l := [.empty, .pc (.ivl i), .pc (.ivl k)]) rfl rfl
    exact ⟨_, g, fits_two h3 h4 g5⟩
  · exact ⟨B, flat_finish σ h1, .inl ⟨h1, h2⟩⟩
  · refine ⟨A, ?_, .inl ⟨h1, h2⟩⟩
    cases h1 <;> rfl

theorem Pair.reduce (σ : Orders EReal) {j : Ivl EReal} {A B : SSet EReal} (h : Pair j A B) :
    ∃ S, reduceM (SSet.or σ) [A, B] = .ok S ∧ Fits j S := by
  rcases h with ⟨hj, i, k, rfl, rfl, h3, h4, h5⟩ | ⟨rfl, h1, h2⟩ | ⟨rfl, h1, h2⟩
  · have e : reduceM (SSet.or σ) [.pc (.ivl i), .pc (.ivl k)] = Ivl.or σ i k := by
      simp only [reduceM, List.foldlM_cons, List.foldlM_nil, SSet.or, Piece.or, bind, Except.bind, pure, Except.pure]
      cases Ivl.or σ i k <;> rfl
    rw [e]
    rcases ivl_or_two σ h3 h4 with ⟨m, g, hm⟩ | ⟨u, g, -, -, -, -, g5, -⟩
    · refine ⟨_, g, .inl ⟨.ivl hm, ?_⟩⟩
      rintro x hx z hz
      cases hx
      rw [hj]; exact full_mem hm hz
    · exact ⟨_, g, fits_two h3 h4 g5⟩
  · refine ⟨B, ?_, .inl ⟨h1, h2⟩⟩
    cases h1 <;> rfl
  · refine ⟨A, ?_, .inl ⟨h1, h2⟩⟩
    cases h1 <;> rfl

/-- The range of a step and the two intervals that `abs` computes. -/
theorem rng_and_two (σ : Orders EReal) {r : SSet EReal} {j : Ivl EReal} (h : Rng r j) (hj : j.WF) {i k : Ivl EReal} (hi : i.WF) (hk : k.WF)
    {A B A' B' : SSet EReal} (a1 : Ivl.and j i = .ok A) (b1 : Ivl.and j k = .ok B) (a2 : Ivl.and i j = .ok A') (b2 : Ivl.and k j = .ok B')
    (p1 : Pair j A B) (p2 : Pair j A' B') {u : Un EReal} (u2 : u.atoms = none) (u3 : u.intervals.Perm [i, k]) (u4 : u.values.Perm [.ivl i, .ivl k]) :
    ∃ S, SSet.and σ r (.un u) = .ok S ∧ Fits j S := by
  have hr := h
  rcases h with rfl | ⟨v, rfl, h1, h2, h3⟩
  · have e : ∀ x y X Y, u.intervals = [x, y] → Ivl.and x j = .ok X → Ivl.and y j = .ok Y → Pair j X Y → ∃ S, SSet.and σ (.pc (.ivl j)) (.un u) = .ok S ∧ Fits j S := by
      intro x y X Y h1 h2 h3 h4
      obtain ⟨S, g1, g2⟩ := h4.finish σ
      refine ⟨S, ?_, g2⟩
      simp only [SSet.and, Un.andPiece, u2, andOptFin, h1, List.mapM_cons, List.mapM_nil, Piece.and, h2, h3, bind, Except.bind, pure, Except.pure]
      exact g1
    rcases perm_two u3 with h | h
    · exact e _ _ _ _ h a2 b2 p2
    · exact e _ _ _ _ h b2 a2 p2.symm
  · have e : ∀ x y X Y, u.values = [.ivl x, .ivl y] → x.WF → y.WF → Ivl.and j x = .ok X → Ivl.and j y = .ok Y → Pair j X Y → ∃ S, SSet.and σ (.un v) (.un u) = .ok S ∧ Fits j S := by
      intro x y X Y h1 wx wy h2 h3 h4
      obtain ⟨S, g1, g2⟩ := h4.reduce σ
      refine ⟨S, ?_, g2⟩
      have e1 : v.andPiece σ (.ivl x) = .ok X := (rng_and_ivl σ hr hj wx).trans h2
      have e2 : v.andPiece σ (.ivl y) = .ok Y := (rng_and_ivl σ hr hj wy).trans h3
      simp only [SSet.and, h1, List.mapM_cons, List.mapM_nil, e1, e2, bind, Except.bind, pure, Except.pure]
      exact g1
    rcases perm_two u4 with h | h
    · exact e _ _ _ _ h hi hk a1 b1 p1
    · exact e _ _ _ _ h hk hi b1 a1 p1.symm

theorem full_wf : fullIvl.WF := SSet.wf_reals

theorem pair_full {i k A B : _} (hi : Ivl.WF i) (hk : Ivl.WF k) (hd : ∀ z, ¬(i.Mem z ∧ k.Mem z))
    (h : (Ivl.and fullIvl i = .ok A ∧ Ivl.and fullIvl k = .ok B) ∨ (Ivl.and i fullIvl = .ok A ∧ Ivl.and k fullIvl = .ok B)) : Pair fullIvl A B := by
  obtain ⟨x, y, hxy, mx, my⟩ := hi.two
  obtain ⟨x', y', hxy', mx', my'⟩ := hk.two
  have ne : ∀ {i' k' : Ivl EReal}, i'.Mem x → (∀ z, k'.Mem z → k.Mem z) → i' ≠ k' := by
    rintro i' _ h1 h2 rfl
    exact hd x ⟨mx, h2 _ h1⟩
  rcases h with ⟨h1, h2⟩ | ⟨h1, h2⟩
  · obtain ⟨i', g1, g2, g3⟩ := Ivl.and_two full_wf hi hxy ⟨full_mem hi mx, mx⟩ ⟨full_mem hi my, my⟩
    obtain ⟨k', g1', g2', g3'⟩ := Ivl.and_two full_wf hk hxy' ⟨full_mem hk mx', mx'⟩ ⟨full_mem hk my', my'⟩
    rw [g1] at h1; rw [g1'] at h2; cases h1; cases h2
    exact .inl ⟨rfl, i', k', rfl, rfl, g2, g2', ne ((g3 _).2 ⟨full_mem hi mx, mx⟩) (fun z hz => ((g3' z).1 hz).2)⟩
  · obtain ⟨i', g1, g2, g3⟩ := Ivl.and_two hi full_wf hxy ⟨mx, full_mem hi mx⟩ ⟨my, full_mem hi my⟩
    obtain ⟨k', g1', g2', g3'⟩ := Ivl.and_two hk full_wf hxy' ⟨mx', full_mem hk mx'⟩ ⟨my', full_mem hk my'⟩
    rw [g1] at h1; rw [g1'] at h2; cases h1; cases h2
    exact .inl ⟨rfl, i', k', rfl, rfl, g2, g2', ne ((g3 _).2 ⟨mx, full_mem hi mx⟩) (fun z hz => ((g3' z).1 hz).1)⟩

theorem and_none {i k : Ivl EReal} (hi : i.WF) (hk : k.WF) {B : SSet EReal} (h : Ivl.and i k = .ok B) (hd : ∀ z, ¬(i.Mem z ∧ k.Mem z)) : B = .empty := by
  obtain ⟨S, hS, w, -, -, hm⟩ := Ivl.and_spec i k hi hk
  rw [hS] at h; cases h
  have fl : B.Flat := by
    obtain ⟨V, h1, h2, -⟩ := rng_and_flat (Orders.id EReal) (.inl rfl) hi (.ivl hk)
    have h1 : Ivl.and i k = .ok V := h1
    rw [hS] at h1; cases h1; exact h2
  cases fl with
  | empty => rfl
  | @ivl m hm' =>
    obtain ⟨x, y, hxy, mx, my⟩ := hm'.two
    exact absurd ((hm x).1 (by simpa using mx)) (hd _)
  | @one y => exact absurd ((hm y).1 (by simp [Piece.den])) (hd _)

theorem and_flat {i k : Ivl EReal} (hi : i.WF) (hk : k.WF) {B : SSet EReal} (h : Ivl.and i k = .ok B) :
    B.Flat ∧ ∀ m, B = .pc (.ivl m) → ∀ z, m.Mem z → i.Mem z ∧ k.Mem z := by
  obtain ⟨V, h1, h2, -⟩ := rng_and_flat (Orders.id EReal) (.inl rfl) hi (.ivl hk)
  have h1 : Ivl.and i k = .ok V := h1
  obtain ⟨S, hS, w, -, -, hm⟩ := Ivl.and_spec i k hi hk
  rw [h1] at h; cases h
  rw [h1] at hS; cases hS
  refine ⟨h2, ?_⟩
  rintro m rfl z hz
  exact (hm z).1 (by simpa using hz)

theorem pair_pos {j i k A B : _} (hj : Ivl.WF j) (hi : Ivl.WF i) (hk : Ivl.WF k) (hd : ∀ z, ¬(j.Mem z ∧ k.Mem z))
    (h : (Ivl.and j i = .ok A ∧ Ivl.and j k = .ok B) ∨ (Ivl.and i j = .ok A ∧ Ivl.and k j = .ok B)) : Pair j A B := by
  rcases h with ⟨h1, h2⟩ | ⟨h1, h2⟩
  · have := and_none hj hk h2 hd
    exact .inr (.inr ⟨this, (and_flat hj hi h1).1, fun m hm z hz => ((and_flat hj hi h1).2 m hm z hz).1⟩)
  · have := and_none hk hj h2 (fun z hz => hd z hz.symm)
    exact .inr (.inr ⟨this, (and_flat hi hj h1).1, fun m hm z hz => ((and_flat hi hj h1).2 m hm z hz).2⟩)

/-! ## The steps -/

theorem Tr.Chain.stepJ {c : Ctx} (hc : c.Correct) (hl : c.Linear) {k : String} {t : Tr} (h : t.Chain k) :
    t = .id k ∨ (t.Unary ∧ t.sub.Chain k ∧ ∃ j, StepOK c t j ∧ (j = fullIvl ∨ j = posIvl)) := by
  cases h with
  | id => exact .inl rfl
  | radical h hn => exact .inr ⟨trivial, h, _, stepOK_radical c _ hn, .inr rfl⟩
  | exp h hb => exact .inr ⟨trivial, h, _, stepOK_exp c _ hb, .inr rfl⟩
  | log h hb => exact .inr ⟨trivial, h, _, stepOK_log c _ hb, .inl rfl⟩
  | poly h hq => exact .inr ⟨trivial, h, _, stepOK_poly hc hl _ hq, .inl rfl⟩

theorem Tr.invertStep_un (c : Ctx) (t : Tr) (inv : Tr → SSet EReal → Res (SSet EReal)) (u : Un EReal) :
    t.invertStep c inv (.un u) = (do let xs ← u.args.mapM (fun p => inv t (.pc p)); makeUnion c.σ xs) := by
  cases t <;> rfl

abbrev RealOK (S : SSet EReal) : Prop := S.WF ∧ S.Disj ∧ S.PureReal

theorem Tr.Chain.invertUn {c : Ctx} (hc : c.Correct) (hl : c.Linear) {k : String} {t : Tr} (h : t.Chain k) {u : Un EReal} (hne : u.args ≠ []) (hf : ∀ p ∈ u.args, (SSet.pc p).Flat) :
    ∃ N S, RealOK S ∧ t.invertStep c (Tr.invert c N) (.un u) = .ok S := by
  obtain ⟨N, xs, h1, h2, h3⟩ := mapM_some (f := fun n p => Tr.invert c n t (.pc p)) (P := SSet.Flat)
    (fun n m p hnm => Tr.invert_le hnm t _) u.args (fun p hp => h.invert hc hl _ (hf p hp))
  have hx : xs ≠ [] := by intro h; rw [h] at h2; exact hne (List.length_eq_zero_iff.1 h2.symm)
  obtain ⟨r, h4, h5⟩ := reduceM_total (fun a b ha hb => real_or c.σ a b ha hb) hx (fun x hx => (h3 x hx).wf)
  refine ⟨N, r, h5, ?_⟩
  rw [Tr.invertStep_un]
  simp only [h1, bind, Except.bind]
  exact h4

/-- A chain is inverted on every set that fits its outermost step. -/
theorem Tr.Chain.invertFits {c : Ctx} (hc : c.Correct) (hl : c.Linear) {k : String} {t : Tr} (h : t.Chain k) :
    ∃ r j, t.range c = .ok r ∧ Rng r j ∧ j.WF ∧ (j = fullIvl ∨ j = posIvl) ∧
      ∀ S, Fits j S → ∃ N T, RealOK T ∧ t.invertStep c (Tr.invert c N) S = .ok T := by
  rcases h.stepJ hc hl with rfl | ⟨hu, hsub, j, ho, hj⟩
  · obtain ⟨r, h1, h2⟩ := extReals_rng c
    refine ⟨r, _, h1, h2, full_wf, .inl rfl, fun S hS => ?_⟩
    rcases hS with ⟨hS, -⟩ | ⟨u, rfl, h1, h2⟩
    · refine ⟨0, S, hS.wf, ?_⟩
      cases hS <;> rfl
    · exact h.invertUn hc hl h1 h2
  · obtain ⟨r, h1, h2⟩ := ho.range
    refine ⟨r, j, h1, h2, ho.wf, hj, fun S hS => ?_⟩
    rcases hS with ⟨hS, hm⟩ | ⟨u, rfl, h1, h2⟩
    · cases hS with
      | empty => exact ⟨0, .empty, ⟨trivial, trivial, trivial⟩, rfl⟩
      | @one y =>
        obtain ⟨F, g1, g2⟩ := ho.finv y
        obtain ⟨xs, h4, h5⟩ := iterUnion_one (c := c) (f := fun y => t.finv c y) g1 (flat_or_self g2 _)
        obtain ⟨N, T, hT, h6⟩ := hsub.invert hc hl F g2
        refine ⟨N, T, hT.wf, ?_⟩
        rw [Tr.invertStep_fin hu]
        simp only [h4, h5, bind, Except.bind]
        exact h6
      | @ivl i hi =>
        obtain ⟨m, m1, m2⟩ := ho.pre i hi (hm i rfl)
        obtain ⟨N, T, hT, h6⟩ := hsub.invert hc hl _ (.ivl m2)
        refine ⟨N, T, hT.wf, ?_⟩
        rw [Tr.invertStep_ivl hu]
        simp only [m1, bind, Except.bind]
        exact h6
    · exact h.invertUn hc hl h1 h2

/-- Inversion of a chain on an interval of nonnegative numbers together with its mirror image. -/
theorem Tr.Chain.invertTwo {c : Ctx} (hc : c.Correct) (hl : c.Linear) {k : String} {t : Tr} (h : t.Chain k) {i n : Ivl EReal} (hi : i.WF) (hn : n.WF)
    (hp : ∀ z, i.Mem z → (0 : EReal) ≤ z) (hm : ∀ x : ℝ, n.Mem x ↔ i.Mem ((-x : ℝ) : EReal))
    (hd : ∀ z, ¬(i.Mem z ∧ n.Mem z)) {u : Un EReal} (u2 : u.atoms = none) (u3 : u.intervals.Perm [i, n]) (u4 : u.values.Perm [.ivl i, .ivl n]) :
    ∃ N T, RealOK T ∧ t.invert c N (.un u) = .ok T := by
  obtain ⟨r, j, h1, h2, hj, hj2, h3⟩ := h.invertFits hc hl
  obtain ⟨A, a1, -⟩ := Ivl.and_spec j i hj hi
  obtain ⟨B, b1, -⟩ := Ivl.and_spec j n hj hn
  obtain ⟨A', a2, -⟩ := Ivl.and_spec i j hi hj
  obtain ⟨B', b2, -⟩ := Ivl.and_spec n j hn hj
  have pp : Pair j A B ∧ Pair j A' B' := by
    rcases hj2 with rfl | rfl
    · exact ⟨pair_full hi hn hd (.inl ⟨a1, b1⟩), pair_full hi hn hd (.inr ⟨a2, b2⟩)⟩
    · have hd2 : ∀ z, ¬(posIvl.Mem z ∧ n.Mem z) := by
        rintro z ⟨m1, m2⟩
        have hz : (0 : EReal) ≤ z := m1.1
        have hf := full_mem hn m2
        lift z to ℝ using ⟨hf.2.ne, hf.1.ne'⟩
        have g1 := (hm z).1 m2
        have g2 := hp _ g1
        have hz' : (0 : ℝ) ≤ z := by exact_mod_cast hz
        have g2' : (0 : ℝ) ≤ -z := by exact_mod_cast g2
        have : z = 0 := by linarith
        subst this
        exact hd _ ⟨by simpa using g1, m2⟩
      exact ⟨pair_pos hj hi hn hd2 (.inl ⟨a1, b1⟩), pair_pos hj hi hn hd2 (.inr ⟨a2, b2⟩)⟩
  obtain ⟨S, s1, s2⟩ := rng_and_two c.σ h2 hj hi hn a1 b1 a2 b2 pp.1 pp.2 u2 u3 u4
  obtain ⟨N, T, hT, h4⟩ := h3 S s2
  refine ⟨N + 1, T, hT, ?_⟩
  simp only [Tr.invert, h1, bind, Except.bind, s1]
  exact h4

theorem pos_and_one {i : Ivl EReal} (hi : i.WF) {y : EReal} (h : Ivl.and posIvl i = .ok (.pc (.fin {y}))) : y = 0 := by
  unfold Ivl.and at h
  have hne : (⊤ : EReal) ≠ i.a := (hi.1.trans_le le_top).ne'
  split_ifs at h with h1 h2 h3 h4 h5 h6 h7 h8 h9 <;>
    first
      | exact absurd (by assumption) hne
      | (simp only [bind, Except.bind] at h; split at h <;> simp at h)
      | (simp at h; done)
      | (simp at h; rw [← h]; exact (by assumption : (0 : EReal) = i.b).symm)

theorem Tr.abs_invert {c : Ctx} (hc : c.Correct) (hl : c.Linear) {k : String} {t : Tr} (h : t.Chain k) {i : Ivl EReal} (hi : i.WF) :
    ∃ N T, RealOK T ∧ (Tr.abs t).invert c N (.pc (.ivl i)) = .ok T := by
  obtain ⟨r, h1, h2⟩ := extRealsPos_rng c
  have h1 : (Tr.abs t).range c = .ok r := h1
  obtain ⟨V, h3, h4, h5⟩ := rng_and_flat c.σ h2 pos_wf (.ivl hi)
  have hV : Ivl.and posIvl i = .ok V := by rw [← h3, rng_and_ivl c.σ h2 pos_wf hi]
  cases h4 with
  | empty =>
    refine ⟨1, .empty, ⟨trivial, trivial, trivial⟩, ?_⟩
    simp only [Tr.invert, h1, bind, Except.bind, h3]; rfl
  | @one y =>
    have := pos_and_one hi hV
    subst this
    have hF : ∃ F, (Tr.abs t).finv c 0 = .ok F ∧ F.Flat := by
      obtain ⟨r, h1, -⟩ := extRealsPos_rng c
      have g := (extRealsPos_spec h1).1
      rw [Tr.finv]
      exact ifInRange_flat h1 g (F := .pc (.fin {0})) .one (by simp)
    obtain ⟨F, g1, g2⟩ := hF
    obtain ⟨xs, h6, h7⟩ := iterUnion_one (c := c) (f := fun y => (Tr.abs t).finv c y) g1 (flat_or_self g2 _)
    obtain ⟨N, T, hT, h8⟩ := h.invert hc hl F g2
    refine ⟨N + 1, T, hT.wf, ?_⟩
    simp only [Tr.invert, h1, bind, Except.bind, h3]
    rw [Tr.invertStep_fin (t := .abs t) trivial]
    simp only [h6, h7, bind, Except.bind]
    exact h8
  | @ivl m hm =>
    have hp : ∀ z, m.Mem z → (0 : EReal) ≤ z := fun z hz => (h5 m rfl z hz).1
    obtain ⟨n, hn, hmem, he⟩ := absInterval_eq c hm hp
    have key : ∀ U, absInterval c m = .ok U → ∀ N, (Tr.abs t).invert c (N + 1) (.pc (.ivl i)) = t.invert c N U := by
      intro U hU N
      simp only [Tr.invert, h1, bind, Except.bind, h3]
      rw [Tr.invertStep_ivl (t := .abs t) trivial]
      simp only [Tr.intervalPre, hU, bind, Except.bind, Tr.sub]
    rcases ivl_or_two c.σ hm hn with ⟨w, g1, g2⟩ | ⟨u, g1, -, g2, g3, g4, -, g6⟩
    · obtain ⟨N, S, hS, h6⟩ := h.invert hc hl _ (.ivl g2)
      exact ⟨N + 1, S, hS.wf, by rw [key _ (he.trans g1)]; exact h6⟩
    · obtain ⟨N, S, hS, h6⟩ := h.invertTwo hc hl hm hn hp hmem g6 g2 g3 g4
      exact ⟨N + 1, S, hS, by rw [key _ (he.trans g1)]; exact h6⟩

/-- A step whose range is all numbers takes intervals to intervals. -/
theorem Tr.stepIvl {c : Ctx} {t : Tr} (hu : t.Unary) (ho : StepOK c t fullIvl) {i : Ivl EReal} (hi : i.WF) :
    ∃ m : Ivl EReal, m.WF ∧ ∀ n, t.invert c (n + 1) (.pc (.ivl i)) = t.sub.invert c n (.pc (.ivl m)) := by
  obtain ⟨r, h1, h2⟩ := ho.range
  obtain ⟨x, y, hxy, mx, my⟩ := hi.two
  obtain ⟨k, g1, g2, g3⟩ := Ivl.and_two full_wf hi hxy ⟨full_mem hi mx, mx⟩ ⟨full_mem hi my, my⟩
  obtain ⟨m, m1, m2⟩ := ho.pre k g2 (fun z hz => ((g3 z).1 hz).1)
  have h3 : SSet.and c.σ r (.pc (.ivl i)) = .ok (.pc (.ivl k)) := by rw [rng_and_ivl c.σ h2 full_wf hi]; exact g1
  refine ⟨m, m2, fun n => ?_⟩
  simp only [Tr.invert, h1, bind, Except.bind, h3]
  rw [Tr.invertStep_ivl hu]
  simp only [m1, bind, Except.bind]

theorem Tr.Peak.invert {c : Ctx} (hc : c.Correct) (hl : c.Linear) {k : String} {t : Tr} (h : t.Peak k) :
    ∀ i : Ivl EReal, i.WF → ∃ N T, RealOK T ∧ t.invert c N (.pc (.ivl i)) = .ok T := by
  induction h with
  | abs h => exact fun i hi => Tr.abs_invert hc hl h hi
  | @log t b ht hb ih =>
    intro i hi
    obtain ⟨m, hm, h1⟩ := Tr.stepIvl (t := .log t b) trivial (stepOK_log c t hb) hi
    obtain ⟨N, T, hT, h2⟩ := ih m hm
    exact ⟨N + 1, T, hT, by rw [h1]; exact h2⟩
  | @poly t p q ht hq ih =>
    intro i hi
    obtain ⟨m, hm, h1⟩ := Tr.stepIvl (t := .poly t [p, q]) trivial (stepOK_poly hc hl t hq) hi
    obtain ⟨N, T, hT, h2⟩ := ih m hm
    exact ⟨N + 1, T, hT, by rw [h1]; exact h2⟩

theorem Tr.Peak.symbols {k : String} {t : Tr} (h : t.Peak k) : t.symbols = {k} := by
  induction h with
  | abs h => simp [Tr.symbols, h.symbols]
  | log _ _ ih => simpa [Tr.symbols] using ih
  | poly _ _ ih => simpa [Tr.symbols] using ih

theorem Tr.Peak.made {c : Ctx} {k : String} {t : Tr} (h : t.Peak k) : t.Made c := by
  induction h with
  | abs h => exact .abs h.made
  | log _ h ih => exact .log ih h
  | poly _ h ih => exact .poly ih (by simp)

end Sppl
