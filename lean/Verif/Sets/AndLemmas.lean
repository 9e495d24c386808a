import Verif.Sets.Or3Lemmas
import Verif.Util.ExceptLemmas

set_option linter.all false

namespace Sppl
variable {E : Type} [LinearOrder E] [BoundedOrder E]

/-- What `A & B` guarantees. -/
structure AndOK (s t : Set (Val E)) (r : SSet E) : Prop where
  wf : r.WF
  disj : r.Disj
  sub : ∀ v, v ∈ r.den → v ∈ s ∧ v ∈ t
  sup : ∀ v, v.Proper → v ∈ s ∧ v ∈ t → v ∈ r.den

/-- Exact version of `AndOK` (also for infinities). -/
structure AndEx (s t : Set (Val E)) (r : SSet E) : Prop where
  wf : r.WF
  disj : r.Disj
  iff : ∀ v, v ∈ r.den ↔ v ∈ s ∧ v ∈ t

theorem AndEx.ok {s t : Set (Val E)} {r : SSet E} (h : AndEx s t r) : AndOK s t r :=
  ⟨h.wf, h.disj, fun v hv => (h.iff v).1 hv, fun v _ hv => (h.iff v).2 hv⟩

theorem AndEx.symm {s t : Set (Val E)} {r : SSet E} (h : AndEx s t r) : AndEx t s r :=
  ⟨h.wf, h.disj, fun v => by rw [h.iff, and_comm]⟩

theorem AndOK.symm {s t : Set (Val E)} {r : SSet E} (h : AndOK s t r) : AndOK t s r :=
  ⟨h.wf, h.disj, fun v hv => (h.sub v hv).symm, fun v hp hv => h.sup v hp hv.symm⟩

theorem finOrEmpty_spec (s : Finset E) : (finOrEmpty s).WF ∧ (finOrEmpty s).Disj ∧ 
    (∀ u, finOrEmpty s ≠ .un u) ∧ ∀ v, v ∈ (finOrEmpty s).den ↔ ∃ x, v = .num x ∧ x ∈ s := by
  unfold finOrEmpty
  split
  · rename_i h; exact ⟨trivial, trivial, by simp, by simp [h]⟩
  · rename_i h; exact ⟨Finset.nonempty_iff_ne_empty.2 h, trivial, by simp, by simp [Piece.den]⟩

theorem Ivl.and_ne_un (i j : Ivl E) (u : Un E) : Ivl.and i j ≠ .ok (.un u) := by
  unfold Ivl.and
  split_ifs <;> simp [bind, Except.bind] <;> split <;> simp

theorem Piece.and_spec (p q : Piece E) (hp : p.WF) (hq : q.WF) :
    ∃ r, Piece.and p q = .ok r ∧ AndEx p.den q.den r := by
  have fe : ∀ s : Finset E, ∀ S T : Set (Val E), (∀ v, (∃ x, v = .num x ∧ x ∈ s) ↔ v ∈ S ∧ v ∈ T) →
      AndEx S T (finOrEmpty s) := by
    intro s S T h
    obtain ⟨h1, h2, -, h3⟩ := finOrEmpty_spec s
    exact ⟨h1, h2, fun v => by rw [h3, h]⟩
  cases p with
  | nom n =>
    cases q with
    | nom m =>
      obtain ⟨r, e1, e2, e3, e4, e5⟩ := Nom.and_spec (E := E) n m hp hq
      refine ⟨r, e1, e2, e3, ?_⟩
      intro v; cases v <;> simp [Piece.str_mem_den_nom, e4, e5]
    | fin s => exact ⟨_, rfl, trivial, trivial, by intro v; cases v <;> simp⟩
    | ivl s => exact ⟨_, rfl, trivial, trivial, by intro v; cases v <;> simp⟩
  | fin s =>
    cases q with
    | nom n => exact ⟨_, rfl, trivial, trivial, by intro v; cases v <;> simp⟩
    | fin t => exact ⟨_, rfl, fe _ _ _ (by intro v; cases v <;> simp)⟩
    | ivl i => exact ⟨_, rfl, fe _ _ _ (by intro v; cases v <;> simp [Ivl.has_iff])⟩
  | ivl i =>
    cases q with
    | nom n => exact ⟨_, rfl, trivial, trivial, by intro v; cases v <;> simp⟩
    | fin t => exact ⟨_, rfl, fe _ _ _ (by intro v; cases v <;> simp [Ivl.has_iff, and_comm])⟩
    | ivl j =>
      obtain ⟨r, e1, e2, e3, -, e5⟩ := Ivl.and_spec i j hp hq
      refine ⟨r, e1, e2, ?_, ?_⟩
      · cases r with
        | un u => exact absurd e1 (Ivl.and_ne_un i j u)
        | _ => trivial
      · intro v; cases v <;> simp [e3, e5]

theorem nomOrEmpty_ne_un (v : Finset String) (u : Un E) : nomOrEmpty v ≠ .ok (.un u) := by
  unfold nomOrEmpty; split_ifs <;> simp [bind, Except.bind] <;> split <;> simp

theorem Piece.and_ne_un (p q : Piece E) (u : Un E) : Piece.and p q ≠ .ok (.un u) := by
  cases p <;> cases q <;> simp [Piece.and]
  · unfold Nom.and; split_ifs
    · exact nomOrEmpty_ne_un _ _
    · exact nomOrEmpty_ne_un _ _
    · simp [bind, Except.bind]; split <;> simp
  · exact (finOrEmpty_spec _).2.2.1 u
  · exact (finOrEmpty_spec _).2.2.1 u
  · exact (finOrEmpty_spec _).2.2.1 u
  · exact Ivl.and_ne_un _ _ _

theorem Un.andPiece_spec (σ : Orders E) (u : Un E) (hu : u.WF) (hd : (SSet.un u).Disj) (p : Piece E)
    (hp : p.WF) {r : SSet E} (h : u.andPiece σ p = .ok r) : AndEx (SSet.un u).den p.den r := by
  by_cases hpn : ∃ n, p = .nom n
  · obtain ⟨n, rfl⟩ := hpn
    simp only [Un.andPiece] at h
    rcases hk : u.nominals with _ | k
    · simp [hk, andOptNom] at h; subst h
      refine ⟨trivial, trivial, ?_⟩
      intro v; rw [hu.mem_den]; cases v <;> simp [hk]
    · simp only [hk, andOptNom] at h
      obtain ⟨r', e1, e2, e3, e4, e5⟩ := Nom.and_spec (E := E) k n (hu.nom_wf hk) hp
      rw [e1] at h; cases h
      refine ⟨e2, e3, ?_⟩
      intro v; rw [hu.mem_den]; cases v <;> simp [e4, e5, hk, Piece.str_mem_den_nom]
  · push Not at hpn
    have hform : u.andPiece σ p = (do
        let atoms ← andOptFin u.atoms p
        let ints ← u.intervals.mapM (fun i => Piece.and (.ivl i) p)
        finishAnd σ atoms (ints.filter (fun s => !s.isEmpty))) := by
      cases p <;> first | rfl | exact absurd rfl (hpn _)
    rw [hform] at h
    -- the atoms
    obtain ⟨A, hA, hAw⟩ : ∃ A, andOptFin u.atoms p = .ok A ∧ (∀ w, A ≠ .un w) ∧ A.WF ∧
        ∀ v, v ∈ A.den ↔ (∃ s, u.atoms = some s ∧ v ∈ (Piece.fin s).den) ∧ v ∈ p.den := by
      rcases hk : u.atoms with _ | k
      · exact ⟨.empty, rfl, by simp, trivial, by simp⟩
      · obtain ⟨r', e1, e2⟩ := Piece.and_spec (.fin k) p (hu.fin_wf hk) hp
        refine ⟨r', e1, ?_, e2.wf, ?_⟩
        · intro w hw; subst hw; exact Piece.and_ne_un _ _ _ e1
        · intro v; simp [e2.iff]
    obtain ⟨hAu, hAwf, hAd⟩ := hAw
    rw [hA] at h
    simp only [bind, Except.bind] at h
    split at h
    · cases h
    rename_i ints hints
    have hF := mapM_ok hints
    set ne := ints.filter (fun s => !s.isEmpty) with hne
    have hmemne : ∀ s, s ∈ ne ↔ s ∈ ints ∧ s ≠ .empty := by
      intro s; rw [hne, List.mem_filter]; cases s <;> simp [SSet.isEmpty]
    have hsrc : ∀ s ∈ ints, ∃ i ∈ u.intervals, Piece.and (.ivl i) p = .ok s ∧ s.WF ∧ (∀ w, s ≠ .un w) ∧
        ∀ v, v ∈ s.den ↔ v ∈ (Piece.ivl i).den ∧ v ∈ p.den := by
      intro s hs
      obtain ⟨i, hi, hR⟩ := forall₂_mem_right hF hs
      obtain ⟨r', e1, e2⟩ := Piece.and_spec (.ivl i) p (hu.ivl_wf hi) hp
      rw [hR] at e1; cases e1
      exact ⟨i, hi, hR, e2.wf, fun w hw => by subst hw; exact Piece.and_ne_un _ _ _ hR, e2.iff⟩
    -- the members
    have hden : ∀ v, (v ∈ A.den ∨ ∃ s ∈ ne, v ∈ s.den) ↔ v ∈ (SSet.un u).den ∧ v ∈ p.den := by
      intro v
      constructor
      · rintro (hv | ⟨s, hs, hv⟩)
        · obtain ⟨⟨s, hs, hv1⟩, hv2⟩ := (hAd v).1 hv
          exact ⟨⟨_, (hu.mem_values _).2 (.inr (.inl ⟨s, hs, rfl⟩)), hv1⟩, hv2⟩
        · obtain ⟨i, hi, -, -, -, hs'⟩ := hsrc s ((hmemne s).1 hs).1
          obtain ⟨hv1, hv2⟩ := (hs' v).1 hv
          exact ⟨⟨_, (hu.mem_values _).2 (.inr (.inr ⟨i, hi, rfl⟩)), hv1⟩, hv2⟩
      · rintro ⟨⟨q, hq, hv1⟩, hv2⟩
        rcases (hu.mem_values q).1 hq with ⟨m, hm, rfl⟩ | ⟨s, hs, rfl⟩ | ⟨i, hi, rfl⟩
        · exact absurd ⟨hv1, hv2⟩ (Piece.nom_ivl_disj m p hpn v)
        · exact .inl ((hAd v).2 ⟨⟨s, hs, hv1⟩, hv2⟩)
        · right
          obtain ⟨s, hs, hR⟩ := forall₂_mem_left hF hi
          obtain ⟨r', e1, e2⟩ := Piece.and_spec (.ivl i) p (hu.ivl_wf hi) hp
          rw [hR] at e1; cases e1
          have hvs := (e2.iff v).2 ⟨hv1, hv2⟩
          refine ⟨s, (hmemne s).2 ⟨hs, ?_⟩, hvs⟩
          intro h0; subst h0; simp at hvs
    have hnwf : ∀ s ∈ ne, s.WF ∧ s.Disj := by
      intro s hs
      obtain ⟨i, hi, -, hw, hun, hs'⟩ := hsrc s ((hmemne s).1 hs).1
      refine ⟨hw, ?_⟩
      cases s with
      | un w => exact absurd rfl (hun w)
      | _ => trivial
    have hAdisj : A.Disj := by
      cases A with
      | un w => exact absurd rfl (hAu w)
      | _ => trivial
    have hmk : mkUnion σ (A :: ne) = .ok r → AndEx (SSet.un u).den p.den r := by
      intro hr
      obtain ⟨w, h1, h2, -, -, -, h6⟩ := mkUnion_ok hr
      subst h1
      refine ⟨h6 ?_, ?_, ?_⟩
      · intro q hq
        rcases List.mem_cons.1 hq with rfl | hq
        · exact hAwf
        · exact (hnwf _ hq).1
      · intro q hq q' hq' hqq v
        rw [h2] at hq hq'
        have hsub : ∀ q, SSet.pc q ∈ A :: ne → ∃ q0 ∈ u.values,
            (∀ v, v ∈ q.den → v ∈ q0.den) ∧ Piece.and q0 p = .ok (.pc q) := by
          intro q hq
          rcases List.mem_cons.1 hq with rfl | hq
          · rcases hk : u.atoms with _ | k
            · simp [hk, andOptFin] at hA
            · refine ⟨.fin k, (hu.mem_values _).2 (.inr (.inl ⟨k, hk, rfl⟩)), ?_, ?_⟩
              · intro v hv; obtain ⟨⟨s, hs, hv1⟩, -⟩ := (hAd v).1 hv
                rw [hk] at hs; cases hs; exact hv1
              · simpa [hk, andOptFin] using hA
          · obtain ⟨i, hi, hR, -, -, hs'⟩ := hsrc _ ((hmemne _).1 hq).1
            exact ⟨.ivl i, (hu.mem_values _).2 (.inr (.inr ⟨i, hi, rfl⟩)), fun v hv => ((hs' v).1 hv).1, hR⟩
        obtain ⟨q0, hq0, hs0, hr0⟩ := hsub q hq
        obtain ⟨q1, hq1, hs1, hr1⟩ := hsub q' hq'
        by_cases h01 : q0 = q1
        · subst h01; rw [hr0] at hr1; cases hr1; exact absurd rfl hqq
        · rintro ⟨hv, hv'⟩
          exact hd q0 hq0 q1 hq1 h01 v ⟨hs0 v hv, hs1 v hv'⟩
      · intro v
        rw [← hden]
        simp only [SSet.mem_den_un, h2, List.mem_cons]
        constructor
        · rintro ⟨q, rfl | hq, hv⟩
          · exact .inl hv
          · exact .inr ⟨_, hq, hv⟩
        · rintro (hv | ⟨s, hs, hv⟩)
          · cases A with
            | empty => simp at hv
            | pc q => exact ⟨q, .inl rfl, hv⟩
            | un w => exact absurd rfl (hAu w)
          · obtain ⟨i, hi, -, hw, hun, hs'⟩ := hsrc s ((hmemne s).1 hs).1
            cases s with
            | empty => simp at hv
            | pc q => exact ⟨q, .inr hs, hv⟩
            | un w => exact absurd rfl (hun w)
    clear_value ne
    match A, ne, h with
    | .empty, [], h =>
      cases h
      exact ⟨trivial, trivial, fun v => by rw [← hden]; simp⟩
    | .empty, [s], h =>
      cases h
      exact ⟨(hnwf r (by simp)).1, (hnwf r (by simp)).2, fun v => by rw [← hden]; simp⟩
    | .pc q, [], h =>
      cases h
      exact ⟨hAwf, hAdisj, fun v => by rw [← hden]; simp⟩
    | .un w, _, h => exact absurd rfl (hAu w)
    | .empty, _ :: _ :: _, h => exact hmk h
    | .pc q, _ :: _, h => exact hmk h

/-- Reducing a non-empty list with `|`. -/
theorem reduce_or_spec (σ : Orders E) (l : List (SSet E)) (hl : ∀ s ∈ l, s.WF ∧ s.Disj) {r : SSet E}
    (h : reduceM (SSet.or σ) l = .ok r) : r.WF ∧ r.Disj ∧ (∀ v, v ∈ r.den → ∃ s ∈ l, v ∈ s.den) ∧
      (∀ v, v.Proper → (∃ s ∈ l, v ∈ s.den) → v ∈ r.den) := by
  have key : ∀ (l : List (SSet E)) (hl : ∀ s ∈ l, s.WF ∧ s.Disj) (s : SSet E), s.WF → s.Disj → ∀ {r},
      l.foldlM (SSet.or σ) s = .ok r → r.WF ∧ r.Disj ∧ (∀ v, v ∈ r.den → v ∈ s.den ∨ ∃ s ∈ l, v ∈ s.den) ∧
      (∀ v, v.Proper → (v ∈ s.den ∨ ∃ s ∈ l, v ∈ s.den) → v ∈ r.den) := by
    intro l
    induction l with
    | nil =>
      intro _ s hs hd r h; simp [pure, Except.pure] at h; subst h
      exact ⟨hs, hd, by simp, by simp⟩
    | cons t l ih =>
      intro hl s hs hd r h
      simp only [List.foldlM_cons, bind, Except.bind] at h
      split at h
      · cases h
      · rename_i s' hs'
        have h1 := SSet.or_spec σ s t hs hd (hl t (by simp)).1 (hl t (by simp)).2 hs'
        obtain ⟨a1, a2, a3, a4⟩ := ih (fun q hq => hl q (by simp [hq])) s' h1.wf h1.disj h
        refine ⟨a1, a2, ?_, ?_⟩
        · intro v hv
          rcases a3 v hv with h | ⟨q, hq, hv'⟩
          · rcases h1.sub v h with h | h
            · exact .inl h
            · exact .inr ⟨t, by simp, h⟩
          · exact .inr ⟨q, by simp [hq], hv'⟩
        · rintro v hp (h | ⟨q, hq, hv'⟩)
          · exact a4 v hp (.inl (h1.sup v hp (.inl h)))
          · rcases List.mem_cons.1 hq with rfl | hq
            · exact a4 v hp (.inl (h1.sup v hp (.inr hv')))
            · exact a4 v hp (.inr ⟨q, hq, hv'⟩)
  match l, hl, h with
  | [], _, h => simp [reduceM] at h
  | s :: l, hl, h =>
    obtain ⟨a1, a2, a3, a4⟩ := key l (fun q hq => hl q (by simp [hq])) s (hl s (by simp)).1 (hl s (by simp)).2 h
    exact ⟨a1, a2, fun v hv => by simpa using a3 v hv, fun v hp hv => a4 v hp (by simpa using hv)⟩

theorem SSet.and_spec (σ : Orders E) (s t : SSet E) (hs : s.WF) (hsd : s.Disj) (ht : t.WF) (htd : t.Disj)
    {r : SSet E} (h : SSet.and σ s t = .ok r) : AndOK s.den t.den r := by
  cases s with
  | empty => simp [SSet.and] at h; subst h; exact ⟨trivial, trivial, by simp, by simp⟩
  | pc p =>
    cases t with
    | empty => simp [SSet.and] at h; subst h; exact ⟨trivial, trivial, by simp, by simp⟩
    | pc q =>
      obtain ⟨r', h1, h2⟩ := Piece.and_spec p q hs ht
      simp only [SSet.and, h1, Except.ok.injEq] at h
      subst h; exact h2.ok
    | un u => exact (Un.andPiece_spec σ u ht htd p hs h).symm.ok
  | un u =>
    cases t with
    | empty => simp [SSet.and] at h; subst h; exact ⟨trivial, trivial, by simp, by simp⟩
    | pc q => exact (Un.andPiece_spec σ u hs hsd q ht h).ok
    | un w =>
      simp only [SSet.and, bind, Except.bind] at h
      split at h
      · cases h
      rename_i terms hterms
      have hF := mapM_ok hterms
      have hsrc : ∀ s ∈ terms, ∃ q ∈ w.values, AndEx (SSet.un u).den q.den s := by
        intro s hs'
        obtain ⟨q, hq, hR⟩ := forall₂_mem_right hF hs'
        exact ⟨q, hq, Un.andPiece_spec σ u hs hsd q (ht.pieces q hq) hR⟩
      obtain ⟨a1, a2, a3, a4⟩ := reduce_or_spec σ terms (fun s hs' => by
        obtain ⟨q, -, hq⟩ := hsrc s hs'; exact ⟨hq.wf, hq.disj⟩) h
      refine ⟨a1, a2, ?_, ?_⟩
      · intro v hv
        obtain ⟨s, hs', hv'⟩ := a3 v hv
        obtain ⟨q, hq, hA⟩ := hsrc s hs'
        obtain ⟨h1, h2⟩ := (hA.iff v).1 hv'
        exact ⟨h1, ⟨q, hq, h2⟩⟩
      · rintro v hp ⟨h1, ⟨q, hq, h2⟩⟩
        apply a4 v hp
        obtain ⟨s, hs', hR⟩ := forall₂_mem_left hF hq
        exact ⟨s, hs', ((Un.andPiece_spec σ u hs hsd q (ht.pieces q hq) hR).iff v).2 ⟨h1, h2⟩⟩

theorem reduce_and_spec (σ : Orders E) (l : List (SSet E)) (hl : ∀ s ∈ l, s.WF ∧ s.Disj) {r : SSet E}
    (h : reduceM (SSet.and σ) l = .ok r) : r.WF ∧ r.Disj ∧ (∀ v, v ∈ r.den → ∀ s ∈ l, v ∈ s.den) ∧
      (∀ v, v.Proper → (∀ s ∈ l, v ∈ s.den) → v ∈ r.den) := by
  have key : ∀ (l : List (SSet E)) (hl : ∀ s ∈ l, s.WF ∧ s.Disj) (s : SSet E), s.WF → s.Disj → ∀ {r},
      l.foldlM (SSet.and σ) s = .ok r → r.WF ∧ r.Disj ∧ (∀ v, v ∈ r.den → v ∈ s.den ∧ ∀ s ∈ l, v ∈ s.den) ∧
      (∀ v, v.Proper → (v ∈ s.den ∧ ∀ s ∈ l, v ∈ s.den) → v ∈ r.den) := by
    intro l
    induction l with
    | nil =>
      intro _ s hs hd r h; simp [pure, Except.pure] at h; subst h
      exact ⟨hs, hd, by simp, by simp⟩
    | cons t l ih =>
      intro hl s hs hd r h
      simp only [List.foldlM_cons, bind, Except.bind] at h
      split at h
      · cases h
      · rename_i s' hs'
        have h1 := SSet.and_spec σ s t hs hd (hl t (by simp)).1 (hl t (by simp)).2 hs'
        obtain ⟨a1, a2, a3, a4⟩ := ih (fun q hq => hl q (by simp [hq])) s' h1.wf h1.disj h
        refine ⟨a1, a2, ?_, ?_⟩
        · intro v hv
          obtain ⟨h, h'⟩ := a3 v hv
          obtain ⟨h2, h3⟩ := h1.sub v h
          exact ⟨h2, by simpa using ⟨h3, h'⟩⟩
        · rintro v hp ⟨h, h'⟩
          simp at h'
          exact a4 v hp ⟨h1.sup v hp ⟨h, h'.1⟩, h'.2⟩
  match l, hl, h with
  | [], _, h => simp [reduceM] at h
  | s :: l, hl, h =>
    obtain ⟨a1, a2, a3, a4⟩ := key l (fun q hq => hl q (by simp [hq])) s (hl s (by simp)).1 (hl s (by simp)).2 h
    exact ⟨a1, a2, fun v hv => by simpa using a3 v hv, fun v hp hv => a4 v hp (by simpa using hv)⟩

end Sppl
