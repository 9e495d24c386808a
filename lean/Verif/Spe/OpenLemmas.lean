import Verif.Spe.DerivProps
import Verif.Events.PeakProps

set_option linter.all false

/-!
# The intersection with an open interval (helper lemmas)
-/

namespace Sppl
open Classical

/-- What an interval of a union leaves of an interval that is open at the left end: nothing, an interval, or the right
end. -/
theorem Ivl.and_lo {i j : Ivl EReal} (hi : i.WF) (hj : j.WF) (h1 : j.lo = true) {r : SSet EReal} (hr : Ivl.and i j = .ok r) :
    r = .empty ∨ (∃ k, r = .pc (.ivl k)) ∨ (j.ro = false ∧ r = .pc (.fin {j.b})) := by
  have a1 : j.has j.a = false := by rw [Bool.eq_false_iff, Ne, Ivl.has_iff]; simp [Ivl.Mem, h1]
  have a2 : j.has j.b = true → j.ro = false := by rw [Ivl.has_iff]; simp [Ivl.Mem]
  unfold Ivl.and at hr
  simp only [a1, Bool.false_eq_true, if_false, bind, Except.bind] at hr
  split_ifs at hr with b1 b2 b3 b4 b5 b6 b7 b8 b9 <;> first
    | (cases hr; exact .inl rfl)
    | (cases hr; exact .inr (.inl ⟨_, rfl⟩))
    | (cases hr; exact .inr (.inr ⟨a2 (by assumption), rfl⟩))
    | (split at hr; · cases hr
       · cases hr; exact .inr (.inl ⟨_, rfl⟩))

/-- The same with the ends exchanged. -/
theorem Ivl.and_ro {i j : Ivl EReal} (hi : i.WF) (hj : j.WF) (h1 : j.ro = true) {r : SSet EReal} (hr : Ivl.and i j = .ok r) :
    r = .empty ∨ (∃ k, r = .pc (.ivl k)) ∨ (j.lo = false ∧ r = .pc (.fin {j.a})) := by
  have a1 : j.has j.b = false := by rw [Bool.eq_false_iff, Ne, Ivl.has_iff]; simp [Ivl.Mem, h1]
  have a2 : j.has j.a = true → j.lo = false := by rw [Ivl.has_iff]; intro h; by_contra hc; simp [Ivl.Mem, hc] at h
  unfold Ivl.and at hr
  simp only [a1, Bool.false_eq_true, if_false, bind, Except.bind] at hr
  split_ifs at hr with b1 b2 b3 b4 b5 b6 b7 b8 b9 <;> first
    | (cases hr; exact .inl rfl)
    | (cases hr; exact .inr (.inl ⟨_, rfl⟩))
    | (cases hr; exact .inr (.inr ⟨a2 (by assumption), rfl⟩))
    | (split at hr; · cases hr
       · cases hr; exact .inr (.inl ⟨_, rfl⟩))

/-- Sets of one kind: `Union` accepts them if they are distinct and at most one is a finite set. -/
theorem finishAnd_total (σ : Orders EReal) {A : SSet EReal} {ne : List (SSet EReal)} (hA : A = .empty ∨ ∃ s, A = .pc (.fin s)) (hnd : ne.Nodup)
    (hk : ∀ r ∈ ne, (∃ k, r = .pc (.ivl k)) ∨ ∃ s, r = .pc (.fin s)) (h1 : ∀ s t, .pc (.fin s) ∈ ne → .pc (.fin t) ∈ ne → s = t)
    (h2 : A = .empty ∨ ∀ s, .pc (.fin s) ∉ ne) : ∃ V, finishAnd σ A ne = .ok V := by
  have key : ∀ vs : List (SSet EReal), (∀ u, .un u ∉ vs) → (∀ r ∈ vs, r = .empty ∨ (∃ k, r = .pc (.ivl k)) ∨ ∃ s, r = .pc (.fin s)) → ((vs.filterMap SSet.piece?).filterMap Piece.nom?) = [] := by
    intro vs _ h
    rw [List.filterMap_filterMap, List.filterMap_eq_nil_iff]
    intro r hr
    rcases h r hr with rfl | ⟨k, rfl⟩ | ⟨s, rfl⟩ <;> rfl
  have one : ((ne.filterMap SSet.piece?).filterMap Piece.fin?).length ≤ 1 := by
    have hn : ((ne.filterMap SSet.piece?).filterMap Piece.fin?).Nodup := by
      rw [List.filterMap_filterMap]
      refine hnd.filterMap ?_
      intro a a' b hb hb'
      have f : ∀ x : SSet EReal, b ∈ x.piece?.bind Piece.fin? → x = .pc (.fin b) := by
        intro x hx
        cases x with
        | empty => simp [SSet.piece?] at hx
        | un u => simp [SSet.piece?] at hx
        | pc p => cases p <;> simp [SSet.piece?, Piece.fin?] at hx; rw [hx]
      rw [f a hb, f a' hb']
    have hm : ∀ s ∈ (ne.filterMap SSet.piece?).filterMap Piece.fin?, .pc (.fin s) ∈ ne := by
      intro s hs
      simp only [List.mem_filterMap] at hs
      obtain ⟨p, ⟨x, hx, e1⟩, e2⟩ := hs
      cases x with
      | empty => simp [SSet.piece?] at e1
      | un u => simp [SSet.piece?] at e1
      | pc q => cases q <;> simp [SSet.piece?] at e1 <;> subst e1 <;> simp [Piece.fin?] at e2; subst e2; exact hx
    match hl : (ne.filterMap SSet.piece?).filterMap Piece.fin?, hn, hm with
    | [], _, _ => simp
    | [_], _, _ => simp
    | a :: b :: l, hn, hm =>
      have := h1 a b (hm a (by simp)) (hm b (by simp))
      subst this
      simp at hn
  have nou : ∀ u, .un u ∉ A :: ne := by
    intro u hu
    rcases List.mem_cons.1 hu with h | h
    · rcases hA with rfl | ⟨s, rfl⟩ <;> cases h
    · rcases hk _ h with ⟨k, e⟩ | ⟨s, e⟩ <;> cases e
  have kinds : ∀ r ∈ A :: ne, r = .empty ∨ (∃ k, r = .pc (.ivl k)) ∨ ∃ s, r = .pc (.fin s) := by
    intro r hr
    rcases List.mem_cons.1 hr with rfl | h
    · rcases hA with h | h
      · exact .inl h
      · exact .inr (.inr h)
    · exact .inr (hk r h)
  have hn := key _ nou kinds
  have ha : (((A :: ne).filterMap SSet.piece?).filterMap Piece.fin?).length ≤ 1 := by
    rcases hA with rfl | ⟨s, rfl⟩
    · rw [List.filterMap_cons]; simpa only [SSet.piece?] using one
    · have : (ne.filterMap SSet.piece?).filterMap Piece.fin? = [] := by
        rw [List.filterMap_filterMap, List.filterMap_eq_nil_iff]
        intro r hr
        rcases hk r hr with ⟨k, rfl⟩ | ⟨t, rfl⟩
        · rfl
        · rcases h2 with h | h
          · cases h
          · exact absurd hr (h t)
      rw [List.filterMap_cons]
      simp only [SSet.piece?, List.filterMap_cons, Piece.fin?, this, List.length_cons, List.length_nil]
      exact le_rfl
  have go : (∃ p q, p ≠ q ∧ .pc p ∈ A :: ne ∧ .pc q ∈ A :: ne) → ∃ u, mkUnion σ (A :: ne) = .ok (.un u) := fun h => mkUnion_total nou (by rw [hn]; simp) ha h
  have pcs : ∀ r ∈ ne, ∃ p, r = .pc p := by
    intro r hr
    rcases hk r hr with ⟨k, rfl⟩ | ⟨t, rfl⟩ <;> exact ⟨_, rfl⟩
  rcases hA with rfl | ⟨s, rfl⟩
  · match ne, hnd, pcs, go with
    | [], _, _, _ => exact ⟨_, rfl⟩
    | [k], _, _, _ => exact ⟨_, rfl⟩
    | k :: k' :: ks, hnd, pcs, go =>
      obtain ⟨p, rfl⟩ := pcs k (by simp)
      obtain ⟨q, rfl⟩ := pcs k' (by simp)
      obtain ⟨u, hu⟩ := go ⟨p, q, by rintro rfl; simp at hnd, by simp, by simp⟩
      exact ⟨_, hu⟩
  · match ne, hk, h2, go with
    | [], _, _, _ => exact ⟨_, rfl⟩
    | k :: ks, hk, h2, go =>
      rcases hk k (by simp) with ⟨i, rfl⟩ | ⟨t, rfl⟩
      · obtain ⟨u, hu⟩ := go ⟨.fin s, .ivl i, by simp, by simp, by simp⟩
        exact ⟨_, hu⟩
      · rcases h2 with h | h
        · cases h
        · exact absurd (by simp) (h t)

/-- The intersection of an interval and a union is computed without exceptions if the interval is open, or open at one end
and the union has no isolated numbers. -/
theorem open_andPiece (σ : Orders EReal) {j : Ivl EReal} (hj : j.WF) {u : Un EReal} (hu : u.WF) (hd : (SSet.un u).Disj)
    (h : (j.lo = true ∧ j.ro = true) ∨ (u.atoms = none ∧ (j.lo = true ∨ j.ro = true))) : ∃ V, u.andPiece σ (.ivl j) = .ok V := by
  obtain ⟨ints, e1, -⟩ := mapM_total (f := fun i => Piece.and (.ivl i) (.ivl j)) (P := fun _ => True) (l := u.intervals) (fun i hi => by
    obtain ⟨r, h, -⟩ := Ivl.and_spec i j (hu.ivl_wf hi) hj
    exact ⟨r, h, trivial⟩)
  have hF := mapM_ok e1
  obtain ⟨A, e3, e4, e5⟩ : ∃ A, andOptFin u.atoms (.ivl j) = .ok A ∧ (A = .empty ∨ ∃ s, A = .pc (.fin s)) ∧ (u.atoms = none → A = .empty) := by
    cases u.atoms with
    | none => exact ⟨_, rfl, .inl rfl, fun _ => rfl⟩
    | some s =>
      refine ⟨_, rfl, ?_, by simp⟩
      unfold finOrEmpty
      split
      · exact .inl rfl
      · exact .inr ⟨_, rfl⟩
  have hsrc : ∀ r ∈ ints, r = .empty ∨ (∃ k, r = .pc (.ivl k)) ∨ (j.lo = true ∧ j.ro = false ∧ r = .pc (.fin {j.b})) ∨ (j.ro = true ∧ j.lo = false ∧ r = .pc (.fin {j.a})) := by
    intro r hr
    obtain ⟨i, hi, hR⟩ := forall₂_mem_right hF hr
    have hR' : Ivl.and i j = .ok r := hR
    have hor : j.lo = true ∨ j.ro = true := by rcases h with h | h; exacts [.inl h.1, h.2]
    rcases hor with h | h
    · rcases Ivl.and_lo (hu.ivl_wf hi) hj h hR' with g | g | g
      exacts [.inl g, .inr (.inl g), .inr (.inr (.inl ⟨h, g⟩))]
    · rcases Ivl.and_ro (hu.ivl_wf hi) hj h hR' with g | g | g
      exacts [.inl g, .inr (.inl g), .inr (.inr (.inr ⟨h, g⟩))]
  have hnd : (ints.filter (fun s => !s.isEmpty)).Nodup := by
    have key : ∀ (l : List (Ivl EReal)) (r : List (SSet EReal)), l.Nodup → (∀ i ∈ l, i ∈ u.intervals) → List.Forall₂ (fun i b => Piece.and (.ivl i) (.ivl j) = .ok b) l r →
        (r.filter (fun s => !s.isEmpty)).Nodup := by
      intro l
      induction l with
      | nil => intro r _ _ h; cases h; simp
      | cons i l ih =>
        intro r hn hsub h
        cases h with
        | cons h1 h2 =>
          rename_i b r
          rw [List.nodup_cons] at hn
          have ih' := ih r hn.2 (fun k hk => hsub k (by simp [hk])) h2
          rw [List.filter_cons]
          split
          · rename_i hb
            rw [List.nodup_cons]
            refine ⟨?_, ih'⟩
            intro hbr
            rw [List.mem_filter] at hbr
            obtain ⟨i', hi', hR⟩ := forall₂_mem_right h2 hbr.1
            have hii : i ≠ i' := fun e => hn.1 (e ▸ hi')
            have hiu := hsub i (by simp)
            have hiu' := hsub i' (by simp [hi'])
            obtain ⟨r1, d1, f1⟩ := Piece.and_spec (.ivl i) (.ivl j) (hu.ivl_wf hiu) hj
            obtain ⟨r2, d2, f2⟩ := Piece.and_spec (.ivl i') (.ivl j) (hu.ivl_wf hiu') hj
            rw [h1] at d1; cases d1
            rw [hR] at d2; cases d2
            obtain ⟨v, hv⟩ : ∃ v, v ∈ b.den := by
              obtain ⟨b', hb', hR'⟩ := forall₂_mem_left hF hiu
              rw [h1] at hR'; cases hR'
              have hwf := f1.wf
              cases b with
              | empty => simp [SSet.isEmpty] at hb
              | pc p => exact Piece.WF.nonempty hwf
              | un w => exact absurd h1 (Ivl.and_ne_un i j w)
            exact hd (.ivl i) ((hu.mem_values _).2 (.inr (.inr ⟨i, hiu, rfl⟩))) (.ivl i') ((hu.mem_values _).2 (.inr (.inr ⟨i', hiu', rfl⟩)))
              (by simpa using hii) _ ⟨((f1.iff _).1 hv).1, ((f2.iff _).1 hv).1⟩
          · exact ih'
    exact key u.intervals ints hu.nodup_intervals (fun _ h => h) hF
  have hmem : ∀ {r}, r ∈ ints.filter (fun s => !s.isEmpty) → (∃ k, r = .pc (.ivl k)) ∨ (j.lo = true ∧ j.ro = false ∧ r = .pc (.fin {j.b})) ∨ (j.ro = true ∧ j.lo = false ∧ r = .pc (.fin {j.a})) := by
    intro r hr
    obtain ⟨hr1, hr2⟩ := List.mem_filter.1 hr
    rcases hsrc r hr1 with rfl | h
    · simp [SSet.isEmpty] at hr2
    · exact h
  obtain ⟨V, hV⟩ := finishAnd_total σ e4 hnd (fun r hr => by
      rcases hmem hr with h | ⟨-, -, h⟩ | ⟨-, -, h⟩
      exacts [.inl h, .inr ⟨_, h⟩, .inr ⟨_, h⟩]) (fun s t hs ht => by
      rcases hmem hs with ⟨k, h⟩ | ⟨b1, b2, h⟩ | ⟨b1, b2, h⟩ <;> rcases hmem ht with ⟨k', h'⟩ | ⟨b1', b2', h'⟩ | ⟨b1', b2', h'⟩ <;>
        simp_all) (by
      rcases h with ⟨h1, h2⟩ | ⟨h1, -⟩
      · right
        intro s hs
        rcases hmem hs with ⟨k, h⟩ | ⟨b1, b2, h⟩ | ⟨b1, b2, h⟩
        · cases h
        · simp [h2] at b2
        · simp [h1] at b2
      · exact .inl (e5 h1))
  exact ⟨V, by simp only [Un.andPiece, e3, e1, bind, Except.bind, hV]⟩

/-- The intersection of an interval and a set. -/
theorem open_and_total (σ : Orders EReal) {j : Ivl EReal} (hj : j.WF) {S : SSet EReal} (hS : S.WF) (hd : S.Disj)
    (h : (j.lo = true ∧ j.ro = true) ∨ ((∀ u, S = .un u → u.atoms = none) ∧ (j.lo = true ∨ j.ro = true))) :
    ∃ V, SSet.and σ (.pc (.ivl j)) S = .ok V := by
  cases S with
  | empty => exact ⟨_, rfl⟩
  | pc p => exact pieces_and_total σ (s := .pc (.ivl j)) (t := .pc p) hj hS (by simp) (by simp)
  | un u =>
    obtain ⟨V, hV⟩ := open_andPiece σ hj (u := u) hS hd (by
      rcases h with h | ⟨h1, h2⟩
      exacts [.inl h, .inr ⟨h1 u rfl, h2⟩])
    exact ⟨V, hV⟩

end Sppl
