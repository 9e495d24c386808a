import Verif.Sets.OrLemmas

set_option linter.all false

namespace Sppl
variable {E : Type} [LinearOrder E] [BoundedOrder E]

/-- The values of `EmptySet` or a `FiniteReal`. -/
def ofo (s : Option (Finset E)) : Finset E := s.getD ∅
@[simp] theorem ofo_none : ofo (none : Option (Finset E)) = ∅ := rfl
@[simp] theorem ofo_some (s : Finset E) : ofo (some s) = s := rfl

theorem unionFiniteLoop_spec (σ : Orders E) (rest : List (Ivl E)) :
    ∀ (blocks : List (Ivl E)) (fin : Option (Finset E)), (∀ i ∈ blocks, i.WF) → (∀ i ∈ rest, i.WF) →
    (∀ s, fin = some s → s ≠ ∅) → (∀ x ∈ ofo fin, ∀ i ∈ blocks, ¬ i.Mem x) →
    ∃ bs t, unionFiniteLoop σ blocks fin rest = .ok (bs, t) ∧
      bs.length = blocks.length + rest.length ∧ (∀ i ∈ bs, i.WF) ∧ (∀ s, t = some s → s ≠ ∅) ∧
      ofo t ⊆ ofo fin ∧ (∀ x ∈ ofo t, ∀ i ∈ bs, ¬ i.Mem x) ∧
      (∀ x, (∃ i ∈ bs, i.Mem x) → (∃ i ∈ blocks, i.Mem x) ∨ (∃ i ∈ rest, i.Mem x) ∨ x ∈ ofo fin) ∧
      (∀ x, (∃ i ∈ blocks, i.Mem x) ∨ (∃ i ∈ rest, i.Mem x) → ∃ i ∈ bs, i.Mem x) ∧
      (∀ x, Fin' x → x ∈ ofo fin → (∃ i ∈ bs, i.Mem x) ∨ x ∈ ofo t) := by
  induction rest with
  | nil =>
    intro blocks fin h1 _ h3 h4
    refine ⟨_, _, rfl, by simp, by simpa using h1, h3, by simp, by simpa using h4, ?_, ?_, ?_⟩
    · intro x; simp only [List.mem_reverse]; exact .inl
    · intro x; simp [List.mem_reverse]
    · intro x _ h; exact .inr h
  | cons i rest ih =>
    intro blocks fin h1 h2 h3 h4
    have hi := h2 i (by simp)
    unfold unionFiniteLoop
    cases fin with
    | none =>
      obtain ⟨bs, t, e1, e2, e3, e4, e5, e6, e7, e8, e9⟩ := ih (i :: blocks) none
        (by intro j hj; rcases List.mem_cons.1 hj with rfl | hj; exacts [hi, h1 j hj])
        (fun j hj => h2 j (by simp [hj])) (by simp) (by simp)
      refine ⟨bs, t, e1, ?_, e3, e4, e5, e6, ?_, ?_, e9⟩
      · rw [e2]; simp; omega
      · intro x hx; have := e7 x hx; simp only [List.mem_cons] at *; grind
      · intro x hx; apply e8; simp only [List.mem_cons] at *; grind
    | some s =>
      obtain ⟨t, j, hA, hc⟩ := finOrIvl_spec σ s i hi
      have hwb : ∀ k ∈ j :: blocks, k.WF := by
        intro k hk; rcases List.mem_cons.1 hk with rfl | hk; exacts [hA.wf, h1 k hk]
      have hwr : ∀ k ∈ rest, k.WF := fun k hk => h2 k (by simp [hk])
      rcases hc with ⟨ht, hr⟩ | ⟨ht, u, hr, -, -, -, hat, hiv⟩
      · rw [Ivl.orOptFin, hr]
        subst ht
        obtain ⟨bs, t, e1, e2, e3, e4, e5, e6, e7, e8, e9⟩ := ih (j :: blocks) none hwb hwr
          (by simp) (by simp)
        refine ⟨bs, t, e1, ?_, e3, e4, ?_, e6, ?_, ?_, ?_⟩
        · rw [e2]; simp; omega
        · intro x hx; have := e5 hx; simp at this
        · intro x hx; have := e7 x hx; have := hA.back x; simp only [List.mem_cons, ofo_some, ofo_none] at *; grind
        · intro x hx; apply e8; have := hA.mono x; simp only [List.mem_cons] at *; grind
        · intro x hf hx; left; apply e8; have := hA.cover x hf; simp only [List.mem_cons, ofo_some] at *; grind
      · rw [Ivl.orOptFin, hr]
        simp only [bind, Except.bind, hat, hiv]
        obtain ⟨bs, t', e1, e2, e3, e4, e5, e6, e7, e8, e9⟩ := ih (j :: blocks) (some t) hwb hwr
          (by simpa using ht) (by
            intro x hx k hk
            rcases List.mem_cons.1 hk with rfl | hk
            · exact hA.notMem x hx
            · exact h4 x (hA.sub hx) k hk)
        refine ⟨bs, t', e1, ?_, e3, e4, ?_, e6, ?_, ?_, ?_⟩
        · rw [e2]; simp; omega
        · exact e5.trans hA.sub
        · intro x hx; have := e7 x hx; have := hA.back x; have := @hA.sub x
          simp only [List.mem_cons, ofo_some, ofo_none] at *; grind
        · intro x hx; apply e8; have := hA.mono x; simp only [List.mem_cons] at *; grind
        · intro x hf hx
          rcases hA.cover x hf hx with h | h
          · left; exact e8 x (.inl ⟨j, by simp, h⟩)
          · exact e9 x hf h

/-- Members of a list of pieces. -/
def listDen (l : List (Piece E)) : Set (Val E) := {v | ∃ p ∈ l, v ∈ p.den}

theorem unionIntervalsFinite_spec (σ : Orders E) (l : List (Ivl E)) (fin : Option (Finset E))
    (hne : l ≠ []) (hl : ∀ i ∈ l, i.WF) (hf : ∀ s, fin = some s → s ≠ ∅) :
    ∃ (bs : List (Ivl E)) (t : Option (Finset E)),
      unionIntervalsFinite σ l fin = .ok (bs.map .ivl ++ (t.map .fin).toList) ∧ bs ≠ [] ∧
      (∀ i ∈ bs, i.WF) ∧ (∀ s, t = some s → s ≠ ∅) ∧ bs.Pairwise Ivl.Before ∧
      (∀ x ∈ ofo t, ∀ i ∈ bs, ¬ i.Mem x) ∧ ofo t ⊆ ofo fin ∧
      (∀ x, (∃ i ∈ bs, i.Mem x) → (∃ i ∈ l, i.Mem x) ∨ x ∈ ofo fin) ∧
      (∀ x, (∃ i ∈ l, i.Mem x) → (∃ i ∈ bs, i.Mem x)) ∧
      (∀ x, Fin' x → x ∈ ofo fin → (∃ i ∈ bs, i.Mem x) ∨ x ∈ ofo t) := by
  unfold unionIntervalsFinite
  cases fin with
  | none =>
    obtain ⟨bs, e1, e2, e3, e4, e5⟩ := unionIntervals_spec σ l hne hl
    refine ⟨bs, none, by simp [e1, bind, Except.bind], e2, e3, by simp, e4, by simp, by simp, ?_, ?_, by simp⟩
    · intro x hx; exact .inl ((e5 x).1 hx)
    · intro x hx; exact (e5 x).2 hx
  | some s =>
    obtain ⟨bl, t, f1, f2, f3, f4, f5, f6, f7, f8, f9⟩ := unionFiniteLoop_spec σ l [] (some s)
      (by simp) hl hf (by simp)
    have hbl : bl ≠ [] := by
      intro h; subst h; simp at f2; exact hne (List.eq_nil_of_length_eq_zero f2.symm)
    obtain ⟨bs, e1, e2, e3, e4, e5⟩ := unionIntervals_spec σ bl hbl f3
    refine ⟨bs, t, ?_, e2, e3, f4, e4, ?_, f5, ?_, ?_, ?_⟩
    · simp only [f1, e1, bind, Except.bind]
      cases t <;> simp
    · intro x hx i hi hm
      obtain ⟨j, hj, hm'⟩ := (e5 x).1 ⟨i, hi, hm⟩
      exact f6 x hx j hj hm'
    · intro x hx; have := f7 x ((e5 x).1 hx); simpa using this
    · intro x hx; exact (e5 x).2 (f8 x (.inr hx))
    · intro x hf hx; rw [e5]; exact f9 x hf hx

/-- What `A | B` guarantees. -/
structure OrOK (s t : Set (Val E)) (r : SSet E) : Prop where
  wf : r.WF
  disj : r.Disj
  sub : ∀ v, v ∈ r.den → v ∈ s ∨ v ∈ t
  sup : ∀ v, v.Proper → v ∈ s ∨ v ∈ t → v ∈ r.den

theorem Piece.nom_ivl_disj (n : Nom) (p : Piece E) (hp : ∀ m, p ≠ .nom m) (v : Val E) :
    ¬ (v ∈ (Piece.nom n : Piece E).den ∧ v ∈ p.den) := by
  cases v <;> cases p <;> simp_all

theorem Piece.nom_disj {p q : Piece E} (n : Nom) (h : p = .nom n) (hq : ∀ m, q ≠ .nom m) (v : Val E) :
    ¬ (v ∈ p.den ∧ v ∈ q.den) := by
  subst h; exact Piece.nom_ivl_disj n q hq v

/-- A union made of intervals in increasing order, leftover atoms and possibly a nominal set. -/
theorem finishBlocks_spec (σ : Orders E) (n : Option Nom) (bs : List (Ivl E)) (t : Option (Finset E))
    (hne : bs ≠ []) (hw : ∀ i ∈ bs, i.WF) (ht : ∀ s, t = some s → s ≠ ∅) (hn : ∀ m, n = some m → m.WF)
    (hb : bs.Pairwise Ivl.Before) (hd : ∀ x ∈ ofo t, ∀ i ∈ bs, ¬ i.Mem x) :
    ∃ r, finishBlocks σ n (bs.map .ivl ++ (t.map .fin).toList) = .ok r ∧ r.WF ∧ r.Disj ∧
      (∀ v, v ∈ r.den ↔ (∃ m, n = some m ∧ v ∈ (Piece.nom m).den) ∨
        (∃ x, v = .num x ∧ ((∃ i ∈ bs, i.Mem x) ∨ x ∈ ofo t))) := by
  obtain ⟨i0, bs', rfl⟩ := List.exists_cons_of_ne_nil hne
  by_cases hsing : bs' = [] ∧ t = none ∧ n = none
  · obtain ⟨rfl, rfl, rfl⟩ := hsing
    refine ⟨_, rfl, hw i0 (by simp), trivial, ?_⟩
    intro v; cases v <;> simp
  · have hform : finishBlocks σ n ((i0 :: bs').map .ivl ++ (t.map .fin).toList) =
        mkUnion σ (optNom n :: ((i0 :: bs').map Piece.ivl ++ (t.map Piece.fin).toList).map SSet.pc) := by
      cases bs' <;> cases t <;> cases n <;> first | rfl | exact absurd ⟨rfl, rfl, rfl⟩ hsing
    rw [hform]
    set vs : List (SSet E) := optNom n :: ((i0 :: bs').map Piece.ivl ++ (t.map Piece.fin).toList).map SSet.pc with hvs
    have hmem : ∀ p, SSet.pc p ∈ vs ↔ (∃ m, n = some m ∧ p = .nom m) ∨ (∃ i ∈ i0 :: bs', p = .ivl i) ∨
        (∃ s, t = some s ∧ p = .fin s) := by
      intro p
      rw [hvs]
      cases n <;> cases t <;> simp [optNom, eq_comm, or_assoc]
    have hlt : ∀ j ∈ bs', i0 ≠ j := by
      intro j hj h; subst h
      have := (List.pairwise_cons.1 hb).1 i0 hj
      have := (hw i0 (by simp)).1
      unfold Ivl.Before at *; grind
    have htot : ∃ u, mkUnion σ vs = .ok (.un u) := by
      apply mkUnion_total
      · intro u; rw [hvs]; cases n <;> simp [optNom]
      · rw [hvs]; cases n <;> cases t <;> 
          simp only [optNom, List.filterMap_cons, SSet.piece?_pc, SSet.piece?_empty,
            filterMap_piece?_map, List.filterMap_append, filterMap_nom?_ivl, Piece.nom?_nom] <;> simp [List.filterMap]
      · rw [hvs]; cases n <;> cases t <;> 
          simp only [optNom, List.filterMap_cons, SSet.piece?_pc, SSet.piece?_empty,
            filterMap_piece?_map, List.filterMap_append, filterMap_fin?_ivl, Piece.fin?_nom] <;> simp [List.filterMap]
      · by_cases h1 : bs' = []
        · by_cases h2 : t = none
          · have h3 : n ≠ none := fun h => hsing ⟨h1, h2, h⟩
            obtain ⟨m, hm⟩ := Option.ne_none_iff_exists'.1 h3
            exact ⟨.nom m, .ivl i0, by simp, (hmem _).2 (.inl ⟨m, hm, rfl⟩),
              (hmem _).2 (.inr (.inl ⟨i0, by simp, rfl⟩))⟩
          · obtain ⟨m, hm⟩ := Option.ne_none_iff_exists'.1 h2
            exact ⟨.fin m, .ivl i0, by simp, (hmem _).2 (.inr (.inr ⟨m, hm, rfl⟩)),
              (hmem _).2 (.inr (.inl ⟨i0, by simp, rfl⟩))⟩
        · obtain ⟨i1, bs'', rfl⟩ := List.exists_cons_of_ne_nil h1
          exact ⟨.ivl i0, .ivl i1, by simpa using hlt i1 (by simp), 
            (hmem _).2 (.inr (.inl ⟨i0, by simp, rfl⟩)), (hmem _).2 (.inr (.inl ⟨i1, by simp, rfl⟩))⟩
    obtain ⟨u, hu⟩ := htot
    obtain ⟨u', h1, h2, -, -, -, h6⟩ := mkUnion_ok hu
    cases h1
    refine ⟨_, hu, h6 ?_, ?_, ?_⟩
    · intro p hp
      rcases (hmem p).1 hp with ⟨m, hm, rfl⟩ | ⟨i, hi, rfl⟩ | ⟨s, hs, rfl⟩
      · exact hn m hm
      · exact hw i hi
      · exact Finset.nonempty_iff_ne_empty.2 (ht s hs)
    · intro p hp q hq hpq v
      rw [h2, hmem] at hp hq
      have hB : ∀ i ∈ i0 :: bs', ∀ j ∈ i0 :: bs', i ≠ j → ∀ x, ¬ (i.Mem x ∧ j.Mem x) := by
        intro i hi j hj hij x
        have hb' : (i0 :: bs').Pairwise (fun i j => ∀ x, ¬ (i.Mem x ∧ j.Mem x)) :=
          hb.imp (fun h x => h.disj x)
        have : Std.Symm (fun i j : Ivl E => ∀ x, ¬ (i.Mem x ∧ j.Mem x)) :=
          ⟨fun i j h x hx => h x hx.symm⟩
        exact hb'.forall hi hj hij x
      have hd' : ∀ s, t = some s → ∀ x ∈ s, ∀ i ∈ i0 :: bs', ¬ i.Mem x := by
        intro s hs; subst hs; exact hd
      clear hd hb hform hvs hu h2 h6 hmem hsing hw ht hlt
      rcases hp with ⟨m, hm, rfl⟩ | ⟨i, hi, rfl⟩ | ⟨s, hs, rfl⟩ <;>
      rcases hq with ⟨m', hm', rfl⟩ | ⟨i', hi', rfl⟩ | ⟨s', hs', rfl⟩ <;> 
      cases v <;>
      try simp only [Piece.mem_den_nom, Piece.mem_den_ivl, Piece.mem_den_fin, Piece.str_mem_den_fin, 
        Piece.str_mem_den_ivl, and_false, false_and, not_false_eq_true]
      · rw [hm] at hm'; cases hm'; exact absurd rfl hpq
      · exact hB i hi i' hi' (fun h => hpq (by rw [h])) _
      · rintro ⟨h1, h2⟩; exact hd' s' hs' _ h2 i hi h1
      · rintro ⟨h1, h2⟩; exact hd' s hs _ h1 i' hi' h2
      · rw [hs] at hs'; cases hs'; exact absurd rfl hpq
    · intro v
      simp only [SSet.mem_den_un, h2, hmem]
      constructor
      · rintro ⟨p, ⟨m, hm, rfl⟩ | ⟨i, hi, rfl⟩ | ⟨s, hs, rfl⟩, hv⟩
        · exact .inl ⟨m, hm, hv⟩
        · obtain ⟨x, rfl, hx⟩ := hv; exact .inr ⟨x, rfl, .inl ⟨i, hi, hx⟩⟩
        · obtain ⟨x, rfl, hx⟩ := hv; exact .inr ⟨x, rfl, .inr (by rw [hs]; exact hx)⟩
      · rintro (⟨m, hm, hv⟩ | ⟨x, rfl, ⟨i, hi, hx⟩ | hx⟩)
        · exact ⟨_, .inl ⟨m, hm, rfl⟩, hv⟩
        · exact ⟨_, .inr (.inl ⟨i, hi, rfl⟩), by simpa using hx⟩
        · cases t with
          | none => simp at hx
          | some s => exact ⟨_, .inr (.inr ⟨s, rfl, rfl⟩), by simpa using hx⟩

end Sppl
