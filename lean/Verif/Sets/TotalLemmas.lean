import Verif.Sets.InvertLemmas
import Mathlib.Order.Interval.Set.Infinite
import Mathlib.Data.Set.Finite.Basic

set_option linter.all false

/-! Lemmas on totality of the set operations and on extensionality. -/

namespace Sppl
variable {E : Type} [LinearOrder E] [BoundedOrder E]

theorem exists_str_not_mem (s : Finset String) : ∃ t, t ∉ s := Infinite.exists_notMem_finset s

theorem Nom.WF.exists_has {n : Nom} (hn : n.WF) : ∃ s, n.has s = true := by
  obtain ⟨v, b⟩ := n
  by_cases hb : b = some true
  · subst hb
    obtain ⟨t, ht⟩ := exists_str_not_mem v
    exact ⟨t, by simp [Nom.has, Nom.neg, ht]⟩
  · rcases hn with ⟨t, ht⟩ | h
    · exact ⟨t, by simp [Nom.has, Nom.neg, hb]; exact ht⟩
    · exact absurd h hb

theorem SSet.pureReal_of_str {s : SSet E} (hs : s.WF) (h : ∀ t, Val.str t ∉ s.den) : s.PureReal := by
  cases s with
  | empty => trivial
  | pc p =>
    intro n hn; subst hn
    obtain ⟨t, ht⟩ := Nom.WF.exists_has hs
    exact h t (by simpa [SSet.den, Piece.str_mem_den_nom] using ht)
  | un u =>
    intro p hp n hn; subst hn
    obtain ⟨t, ht⟩ := Nom.WF.exists_has (hs.pieces _ hp)
    exact h t ⟨_, hp, by simpa [Piece.str_mem_den_nom] using ht⟩

theorem SSet.PureReal.str {s : SSet E} (h : s.PureReal) (t : String) : Val.str t ∉ s.den := by
  cases s with
  | empty => simp [SSet.den]
  | pc p =>
    cases p with
    | nom n => exact absurd rfl (h n)
    | fin s => simp [SSet.den]
    | ivl s => simp [SSet.den]
  | un u =>
    rintro ⟨p, hp, hv⟩
    cases p with
    | nom n => exact absurd rfl (h _ hp n)
    | fin s => simp at hv
    | ivl s => simp at hv

/-- A real `Union` has at least one interval. -/
theorem Un.WF.intervals_ne {u : Un E} (hu : u.WF) (hr : (SSet.un u).PureReal) : u.intervals ≠ [] := by
  intro hnil
  have h2 := hu.two_le
  match hv : u.values, h2 with
  | p :: q :: l, _ =>
    have hp := (hu.mem_values p).1 (by simp [hv])
    have hq := (hu.mem_values q).1 (by simp [hv])
    have hpr := hr p (by simp [hv])
    have hqr := hr q (by simp [hv])
    have hnd := hu.nodup
    rw [hv] at hnd
    simp at hnd
    simp [hnil] at hp hq
    rcases hp with ⟨n, _, rfl⟩ | ⟨s, hs, rfl⟩
    · exact hpr n rfl
    rcases hq with ⟨n, _, rfl⟩ | ⟨s', hs', rfl⟩
    · exact hqr n rfl
    rw [hs] at hs'; cases hs'
    simp at hnd

theorem OrOK.pureReal {s t : Set (Val E)} {r : SSet E} (h : OrOK s t r) (hs : ∀ x, Val.str x ∉ s)
    (ht : ∀ x, Val.str x ∉ t) : r.PureReal :=
  SSet.pureReal_of_str h.wf (fun x hx => (h.sub _ hx).elim (hs x) (ht x))

theorem Un.orPiece_total_real (σ : Orders E) (u : Un E) (hu : u.WF) (hr : (SSet.un u).PureReal) (p : Piece E)
    (hp : p.WF) (hpr : ∀ n, p ≠ .nom n) :
    ∃ r, u.orPiece σ p = .ok r ∧ OrOK (SSet.un u).den p.den r := by
  cases p with
  | nom n => exact absurd rfl (hpr n)
  | fin s => exact Un.orPiece_fin σ u hu s hp (hu.intervals_ne hr)
  | ivl i => exact Un.orPiece_ivl σ u hu i hp

theorem SSet.orPiece_total_real (σ : Orders E) (s : SSet E) (hs : s.WF) (hr : s.PureReal) (p : Piece E)
    (hp : p.WF) (hpr : ∀ n, p ≠ .nom n) :
    ∃ r, s.orPiece σ p = .ok r ∧ r.WF ∧ r.PureReal := by
  have hps : ∀ x, Val.str x ∉ p.den := by
    intro x hx; cases p <;> simp_all
  cases s with
  | empty => exact ⟨_, rfl, hp, hpr⟩
  | pc q =>
    obtain ⟨r, e1, e2⟩ := Piece.or_spec σ q p hs hp
    exact ⟨r, e1, e2.wf, e2.pureReal (hr.str) hps⟩
  | un u =>
    obtain ⟨r, e1, e2⟩ := Un.orPiece_total_real σ u hs hr p hp hpr
    exact ⟨r, e1, e2.wf, e2.pureReal (hr.str) hps⟩

theorem SSet.or_total_real (σ : Orders E) (s t : SSet E) (hs : s.WF) (ht : t.WF)
    (hsr : s.PureReal) (htr : t.PureReal) : ∃ r, SSet.or σ s t = .ok r := by
  cases s with
  | empty => exact ⟨t, by simp [SSet.or]⟩
  | pc p =>
    cases t with
    | empty => exact ⟨.pc p, by simp [SSet.or]⟩
    | pc q => exact (Piece.or_spec σ p q hs ht).imp fun r h => h.1
    | un u => exact (Un.orPiece_total_real σ u ht htr p hs hsr).imp fun r h => h.1
  | un u =>
    cases t with
    | empty => exact ⟨.un u, by simp [SSet.or]⟩
    | pc q => exact (Un.orPiece_total_real σ u hs hsr q ht htr).imp fun r h => h.1
    | un v =>
      simp only [SSet.or]
      have hv : ∀ p ∈ v.values, p.WF ∧ ∀ n, p ≠ .nom n := fun p hp => ⟨ht.pieces p hp, htr p hp⟩
      clear htr ht
      generalize v.values = l at hv
      have : ∀ (l : List (Piece E)) (s : SSet E), s.WF → s.PureReal →
          (∀ p ∈ l, p.WF ∧ ∀ n, p ≠ .nom n) → ∃ r, l.foldlM (fun s p => s.orPiece σ p) s = .ok r := by
        intro l
        induction l with
        | nil => intro s _ _ _; exact ⟨s, rfl⟩
        | cons p l ih =>
          intro s hs hr hl
          obtain ⟨r, e1, e2, e3⟩ := SSet.orPiece_total_real σ s hs hr p (hl p (by simp)).1 (hl p (by simp)).2
          obtain ⟨r', e⟩ := ih r e2 e3 (fun q hq => hl q (by simp [hq]))
          exact ⟨r', by simp [List.foldlM, e1, bind, Except.bind]; exact e⟩
      exact this l (.un u) hs hsr hv

/-- Intervals of a dense order are infinite. -/
theorem Ivl.WF.infinite [DenselyOrdered E] {i : Ivl E} (hi : i.WF) : {x | i.Mem x}.Infinite := by
  refine (Set.Ioo_infinite hi.1).mono ?_
  intro x hx
  simp only [Set.mem_Ioo] at hx
  simp only [Set.mem_setOf_eq, Ivl.Mem]
  split <;> split <;> simp [hx.1, hx.2, hx.1.le, hx.2.le]

theorem Ivl.ext_mem [DenselyOrdered E] {i j : Ivl E} (hi : i.WF) (hj : j.WF)
    (h : ∀ x, i.Mem x ↔ j.Mem x) : i = j := by
  have bnd : ∀ {k : Ivl E} {x}, k.Mem x → k.a ≤ x ∧ x ≤ k.b := by
    intro k x hx; unfold Ivl.Mem at hx; revert hx; split <;> split <;> grind
  have ins : ∀ {k : Ivl E} {x}, k.a < x → x < k.b → k.Mem x := by
    intro k x h1 h2; unfold Ivl.Mem; split <;> split <;> grind
  have ha : ∀ {i j : Ivl E}, i.WF → (∀ x, i.Mem x → j.Mem x) → j.a ≤ i.a := by
    intro i j hi h
    by_contra hlt
    push Not at hlt
    obtain ⟨x, h1, h2⟩ := exists_between (lt_min hlt hi.1)
    have := (bnd (h x (ins h1 (lt_of_lt_of_le h2 (min_le_right _ _))))).1
    exact absurd (lt_of_lt_of_le h2 (min_le_left _ _)) (not_lt.2 this)
  have hb : ∀ {i j : Ivl E}, i.WF → (∀ x, i.Mem x → j.Mem x) → i.b ≤ j.b := by
    intro i j hi h
    by_contra hlt
    push Not at hlt
    obtain ⟨x, h1, h2⟩ := exists_between (max_lt hlt hi.1)
    have := (bnd (h x (ins (lt_of_le_of_lt (le_max_right _ _) h1) h2))).2
    exact absurd (lt_of_le_of_lt (le_max_left _ _) h1) (not_lt.2 this)
  have e1 := le_antisymm (ha hi (fun x => (h x).1)) (ha hj (fun x => (h x).2))
  have e2 := le_antisymm (hb hi (fun x => (h x).1)) (hb hj (fun x => (h x).2))
  obtain ⟨a, b, lo, ro⟩ := i
  obtain ⟨a', b', lo', ro'⟩ := j
  simp only at e1 e2
  subst e1 e2
  have hab := hi.1
  simp only at hab
  have h1 := h a'
  have h2 := h b
  unfold Ivl.Mem at h1 h2
  simp only at h1 h2
  congr 1
  · cases lo <;> cases lo' <;> simp at h1 ⊢ <;> split at h1 <;> grind
  · cases ro <;> cases ro' <;> simp at h2 ⊢ <;> split at h2 <;> grind

theorem Piece.ext_den [DenselyOrdered E] {p q : Piece E} (hp : p.WF) (hq : q.WF)
    (h : ∀ v, v ∈ p.den ↔ v ∈ q.den) : (SSet.pc p).eqPy (.pc q) = true := by
  have hnum : ∀ x, Val.num x ∈ p.den ↔ Val.num x ∈ q.den := fun x => h _
  have hstr : ∀ x, Val.str x ∈ p.den ↔ Val.str x ∈ q.den := fun x => h _
  clear h
  have key : ∀ (n : Nom), n.WF → ¬ ∀ x, ¬ n.has x = true := fun n hn h => by
    obtain ⟨t, ht⟩ := hn.exists_has; exact h t ht
  have key2 : ∀ (i : Ivl E) (s : Finset E), i.WF → ¬ ∀ x, (i.Mem x ↔ x ∈ s) := by
    intro i s hi h
    apply hi.infinite
    have : {x | i.Mem x} = ↑s := by ext x; simp [h]
    rw [this]; exact s.finite_toSet
  cases p with
  | nom n =>
    cases q with
    | nom m =>
      simp only [Piece.str_mem_den_nom] at hstr
      obtain ⟨v, b⟩ := n
      obtain ⟨v', b'⟩ := m
      simp only [Nom.has] at hstr
      have hneg : (Nom.mk v b).neg = (Nom.mk v' b').neg := by
        obtain ⟨t, ht⟩ := exists_str_not_mem (v ∪ v')
        simp at ht
        have := hstr t
        cases h1 : (Nom.mk v b).neg <;> cases h2 : (Nom.mk v' b').neg <;> simp [h1, h2, ht] at this <;> rfl
      simp only [SSet.eqPy, hneg, beq_self_eq_true, Bool.true_and, decide_eq_true_eq]
      ext t
      have := hstr t
      rw [hneg] at this
      cases h2 : (Nom.mk v' b').neg <;> simp [h2] at this
      · exact this
      · exact not_iff_not.1 this
    | fin s => simp [Piece.str_mem_den_nom] at hstr; exact absurd (fun x => by simp [hstr x]) (key n hp)
    | ivl i => simp [Piece.str_mem_den_nom] at hstr; exact absurd (fun x => by simp [hstr x]) (key n hp)
  | fin s =>
    cases q with
    | nom m => simp [Piece.str_mem_den_nom] at hstr; exact absurd (fun x => by simp [hstr x]) (key m hq)
    | fin t => simp at hnum; simp [SSet.eqPy]; ext x; exact hnum x
    | ivl i => simp at hnum; exact absurd (fun x => (hnum x).symm) (key2 i s hq)
  | ivl i =>
    cases q with
    | nom m => simp [Piece.str_mem_den_nom] at hstr; exact absurd (fun x => by simp [hstr x]) (key m hq)
    | fin t => simp at hnum; exact absurd hnum (key2 i t hp)
    | ivl j => simp at hnum; simp [SSet.eqPy]; exact Ivl.ext_mem hp hq hnum

theorem SSet.eqPy_den {s t : SSet E} (h : s.eqPy t = true) : s.den = t.den := by
  cases s with
  | empty => cases t <;> simp_all [SSet.eqPy]
  | pc p =>
    cases t with
    | empty => simp [SSet.eqPy] at h
    | un u => cases p <;> simp [SSet.eqPy] at h
    | pc q =>
      cases p <;> cases q <;> simp [SSet.eqPy] at h
      · rename_i n m
        ext v; cases v
        · simp only [SSet.den, Piece.str_mem_den_nom, Nom.has, h.1, h.2]
        · simp [SSet.den]
      · rw [h]
      · rw [h]
  | un u =>
    cases t with
    | empty => simp [SSet.eqPy] at h
    | pc q => cases q <;> simp [SSet.eqPy] at h
    | un u' =>
      simp [SSet.eqPy] at h
      have : ∀ p, p ∈ u.values ↔ p ∈ u'.values := by
        intro p; rw [← List.mem_toFinset, h, List.mem_toFinset]
      ext v; simp [SSet.den, this]

theorem Piece.contains_num (p : Piece E) (x : E) (hneg : ∀ n, p = .nom n → n.neg = false) :
    ∃ b, p.contains (.num x) = .ok b ∧ (b = true ↔ Val.num x ∈ p.den) := by
  cases p with
  | nom n => exact ⟨n.neg, rfl, by simp [hneg n rfl]⟩
  | fin s => exact ⟨_, rfl, by simp⟩
  | ivl i => exact ⟨_, rfl, by simp [Ivl.has_iff]⟩

theorem anyContains_num (l : List (Piece E)) (x : E) (hneg : ∀ n, Piece.nom n ∈ l → n.neg = false) :
    ∃ b, anyContains (.num x) l = .ok b ∧ (b = true ↔ ∃ p ∈ l, Val.num x ∈ p.den) := by
  induction l with
  | nil => exact ⟨false, rfl, by simp⟩
  | cons p l ih =>
    obtain ⟨b, h1, h2⟩ := Piece.contains_num p x (fun n hn => hneg n (by simp [hn]))
    obtain ⟨b', h3, h4⟩ := ih (fun n hn => hneg n (by simp [hn]))
    cases b with
    | true => exact ⟨true, by simp [anyContains, h1, bind, Except.bind], by simp; exact .inl (h2.1 rfl)⟩
    | false =>
      refine ⟨b', by simp [anyContains, h1, bind, Except.bind, h3], ?_⟩
      have : Val.num x ∉ p.den := fun h => by simpa using h2.2 h
      simp [h4, this]

theorem Piece.contains_str (p : Piece E) (x : String) {b : Bool} (h : p.contains (.str x) = .ok b) :
    (b = true ↔ Val.str x ∈ p.den) := by
  cases p with
  | nom n => simp [Piece.contains] at h; subst h; simp [Piece.str_mem_den_nom]
  | fin s => simp [Piece.contains] at h; subst h; simp
  | ivl i => simp [Piece.contains] at h

theorem anyContains_str (l : List (Piece E)) (x : String) {b : Bool} (h : anyContains (.str x) l = .ok b) :
    (b = true ↔ ∃ p ∈ l, Val.str x ∈ p.den) := by
  induction l with
  | nil => simp [anyContains] at h; subst h; simp
  | cons p l ih =>
    simp only [anyContains, bind, Except.bind] at h
    cases hp : p.contains (.str x) with
    | error e => simp [hp] at h
    | ok c =>
      have := Piece.contains_str p x hp
      cases c with
      | true => simp [hp] at h; subst h; simp; exact .inl (this.1 rfl)
      | false =>
        simp [hp] at h
        have hn : Val.str x ∉ p.den := fun h => by simpa using this.2 h
        simp [ih h, hn]

/-- `Union & piece` never raises when at most one of the partial results is a `FiniteReal`. -/
theorem Un.andPiece_single (σ : Orders E) (u : Un E) (hu : u.WF) (hd : (SSet.un u).Disj) (x : E) :
    ∃ r, u.andPiece σ (.fin {x}) = .ok r := by
  have hfo : ∀ s : Finset E, s ⊆ {x} → finOrEmpty s = .empty ∨ finOrEmpty s = .pc (.fin {x}) := by
    intro s hs
    rcases Finset.subset_singleton_iff.1 hs with rfl | rfl <;> simp [finOrEmpty]
  have hints : u.intervals.mapM (fun i => Piece.and (.ivl i) (.fin {x})) =
      .ok (u.intervals.map (fun i => finOrEmpty ((({x} : Finset E)).filter (fun v => i.has v)))) := by
    generalize u.intervals = l
    induction l with
    | nil => rfl
    | cons i l ih =>
      rw [List.mapM_cons, ih]
      simp [Piece.and, bind, Except.bind, pure, Except.pure]
  -- number of intervals containing x
  by_cases hex : ∃ i ∈ u.intervals, i.has x = true
  · obtain ⟨i, hi, hx⟩ := hex
    have honly : ∀ j ∈ u.intervals, j.has x = true → j = i := by
      intro j hj hxj
      by_contra hne
      exact hd (.ivl j) ((hu.mem_values _).2 (.inr (.inr ⟨j, hj, rfl⟩))) (.ivl i)
        ((hu.mem_values _).2 (.inr (.inr ⟨i, hi, rfl⟩))) (by simpa using hne) (.num x)
        ⟨by simpa [Ivl.has_iff] using hxj, by simpa [Ivl.has_iff] using hx⟩
    have hat : andOptFin u.atoms (.fin {x}) = .ok .empty := by
      rcases ha : u.atoms with _ | s
      · rfl
      · simp only [andOptFin, Piece.and]
        have : x ∉ s := by
          intro hxs
          exact hd (.fin s) ((hu.mem_values _).2 (.inr (.inl ⟨s, ha, rfl⟩))) (.ivl i)
            ((hu.mem_values _).2 (.inr (.inr ⟨i, hi, rfl⟩))) (by simp) (.num x)
            ⟨by simpa using hxs, by simpa [Ivl.has_iff] using hx⟩
        simp [finOrEmpty, this]
    have hfil : (u.intervals.map (fun i => finOrEmpty ((({x} : Finset E)).filter (fun v => i.has v)))).filter
        (fun s => !s.isEmpty) = [.pc (.fin {x})] := by
      have hnd := hu.nodup_intervals
      have : ∀ (l : List (Ivl E)), l.Nodup → i ∈ l → (∀ j ∈ l, j.has x = true → j = i) →
        (l.map (fun i => finOrEmpty ((({x} : Finset E)).filter (fun v => i.has v)))).filter
        (fun s => !s.isEmpty) = [.pc (.fin {x})] := by
        intro l
        have hnone : ∀ l : List (Ivl E), (∀ j ∈ l, ¬ j.has x = true) →
          (l.map (fun i => finOrEmpty ((({x} : Finset E)).filter (fun v => i.has v)))).filter
          (fun s => !s.isEmpty) = [] := by
          intro l
          induction l with
          | nil => intro _; rfl
          | cons j l ih =>
            intro h
            have h1 := h j (by simp)
            have h2 := ih (fun k hk => h k (by simp [hk]))
            simp only [List.map_cons, List.filter_cons, h2]
            have : (({x} : Finset E)).filter (fun v => j.has v) = ∅ := by
              rw [Finset.filter_singleton]; simp [h1]
            simp [this, finOrEmpty, SSet.isEmpty]
        induction l with
        | nil => intro _ h; simp at h
        | cons j l ih =>
          intro hnd hi h
          simp only [List.nodup_cons] at hnd
          by_cases hj : j.has x = true
          · have := h j (by simp) hj; subst this
            have h2 := hnone l (fun k hk hkx => hnd.1 (by rw [← h k (by simp [hk]) hkx]; exact hk))
            simp only [List.map_cons, List.filter_cons, h2]
            have : (({x} : Finset E)).filter (fun v => j.has v) = {x} := by
              rw [Finset.filter_singleton]; simp [hj]
            simp [this, finOrEmpty, SSet.isEmpty]
          · have hij : i ≠ j := by rintro rfl; exact hj hx
            have h2 := ih hnd.2 (by simpa [hij] using hi) (fun k hk => h k (by simp [hk]))
            simp only [List.map_cons, List.filter_cons, h2]
            have : (({x} : Finset E)).filter (fun v => j.has v) = ∅ := by
              rw [Finset.filter_singleton]; simp [hj]
            simp [this, finOrEmpty, SSet.isEmpty]
      exact this _ hnd hi honly
    exact ⟨.pc (.fin {x}), by simp only [Un.andPiece, hat, hints, bind, Except.bind, hfil, finishAnd]⟩
  · have hfil : (u.intervals.map (fun i => finOrEmpty ((({x} : Finset E)).filter (fun v => i.has v)))).filter
        (fun s => !s.isEmpty) = [] := by
      rw [List.filter_eq_nil_iff]
      intro s hs
      simp only [List.mem_map] at hs
      obtain ⟨j, hj, rfl⟩ := hs
      have hjx : ¬ j.has x = true := fun h => hex ⟨j, hj, h⟩
      have : (({x} : Finset E)).filter (fun v => j.has v) = ∅ := by
        rw [Finset.filter_singleton]; simp [hjx]
      simp [this, finOrEmpty, SSet.isEmpty]
    have hat : ∃ s, andOptFin u.atoms (.fin {x}) = .ok s := by
      rcases ha : u.atoms with _ | s
      · exact ⟨_, rfl⟩
      · exact ⟨_, rfl⟩
    obtain ⟨s, hs⟩ := hat
    refine ⟨s, ?_⟩
    simp only [Un.andPiece, hs, hints, bind, Except.bind, hfil]
    cases s <;> simp [finishAnd]

end Sppl
