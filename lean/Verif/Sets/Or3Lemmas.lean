import Verif.Sets.Or2Lemmas

set_option linter.all false

namespace Sppl
variable {E : Type} [LinearOrder E] [BoundedOrder E]

theorem mkNom_eq {vals : Finset String} {b : Option Bool} (h : vals.Nonempty ∨ b = some true) :
    mkNom vals b = .ok ⟨vals, b⟩ := by simp [mkNom, h]

theorem Nom.or_spec (n m : Nom) (hn : n.WF) (hm : m.WF) :
    ∃ r, Nom.or n m = .ok r ∧ r.WF ∧ ∀ s, r.has s = (n.has s || m.has s) := by
  obtain ⟨nv, nb⟩ := n
  obtain ⟨mv, mb⟩ := m
  unfold Nom.WF at *
  simp only at hn hm
  unfold Nom.or
  simp only [Nom.neg]
  by_cases h1 : nb = some true
  · subst h1
    simp only [beq_self_eq_true, if_true]
    rw [mkNom_eq (by simp)]
    refine ⟨_, rfl, by simp, ?_⟩
    intro s; by_cases h2 : mb = some true <;> simp [Nom.has, Nom.neg, h2] <;> grind
  · have h1' : (nb == some true) = false := by simpa using h1
    by_cases h2 : mb = some true
    · subst h2
      simp only [h1', beq_self_eq_true, if_true, Bool.false_eq_true, if_false]
      rw [mkNom_eq (by simp)]
      refine ⟨_, rfl, by simp, ?_⟩
      intro s; simp [Nom.has, Nom.neg, h1]; grind
    · have h2' : (mb == some true) = false := by simpa using h2
      simp only [h1', h2', Bool.false_eq_true, if_false]
      have : (nv ∪ mv).Nonempty := by
        rcases hn with h | h
        · exact h.mono Finset.subset_union_left
        · exact absurd h h1
      rw [mkNom_eq (.inl this)]
      refine ⟨_, rfl, .inl this, ?_⟩
      intro s; simp [Nom.has, Nom.neg, h1, h2]

theorem nomOrEmpty_spec (v : Finset String) :
    ∃ r : SSet E, nomOrEmpty v = .ok r ∧ r.WF ∧ r.Disj ∧ (∀ x, Val.num x ∉ r.den) ∧
      ∀ s, Val.str s ∈ r.den ↔ s ∈ v := by
  unfold nomOrEmpty
  by_cases h : v = ∅
  · exact ⟨.empty, by simp [h], trivial, trivial, by simp, by simp [h]⟩
  · rw [if_neg h, mkNom_eq (.inl (Finset.nonempty_iff_ne_empty.2 h))]
    refine ⟨_, rfl, .inl (Finset.nonempty_iff_ne_empty.2 h), trivial, by simp, ?_⟩
    intro s; simp [Piece.str_mem_den_nom, Nom.has, Nom.neg]

theorem Nom.and_spec (n m : Nom) (hn : n.WF) (hm : m.WF) :
    ∃ r : SSet E, Nom.and n m = .ok r ∧ r.WF ∧ r.Disj ∧ (∀ x, Val.num x ∉ r.den) ∧
      ∀ s, Val.str s ∈ r.den ↔ n.has s = true ∧ m.has s = true := by
  obtain ⟨nv, nb⟩ := n
  obtain ⟨mv, mb⟩ := m
  unfold Nom.and
  simp only [Nom.neg]
  by_cases h1 : nb = some true
  · by_cases h2 : mb = some true
    · subst h1 h2
      simp only [beq_self_eq_true, Bool.not_true, Bool.false_eq_true, if_false]
      rw [mkNom_eq (by simp)]
      refine ⟨_, rfl, .inr rfl, trivial, by simp, ?_⟩
      intro s; simp [Piece.str_mem_den_nom, Nom.has, Nom.neg]
    · subst h1
      have h2' : (mb == some true) = false := by simpa using h2
      simp only [h2', beq_self_eq_true, Bool.not_true, Bool.false_eq_true, if_false, Bool.not_false, if_true]
      obtain ⟨r, e1, e2, e3, e4, e5⟩ := nomOrEmpty_spec (E := E) (mv.filter (fun v => Nom.has ⟨nv, some true⟩ v))
      refine ⟨r, e1, e2, e3, e4, ?_⟩
      intro s; rw [e5]; simp [Nom.has, Nom.neg, h2]; grind
  · have h1' : (nb == some true) = false := by simpa using h1
    simp only [h1', Bool.not_false, if_true]
    obtain ⟨r, e1, e2, e3, e4, e5⟩ := nomOrEmpty_spec (E := E) (nv.filter (fun v => Nom.has ⟨mv, mb⟩ v))
    refine ⟨r, e1, e2, e3, e4, ?_⟩
    intro s; rw [e5]; simp [Nom.has, Nom.neg, h1]

theorem Val.proper_num {x : E} : (Val.num x).Proper ↔ Fin' x := Iff.rfl

/-- A two-piece union of disjoint pieces. -/
theorem mkUnion_pair (σ : Orders E) (p q : Piece E) (hp : p.WF) (hq : q.WF) (hne : p ≠ q)
    (hn : ∀ n m, ¬ (p = .nom n ∧ q = .nom m)) (hf : ∀ n m, ¬ (p = .fin n ∧ q = .fin m))
    (hd : ∀ v, ¬ (v ∈ p.den ∧ v ∈ q.den)) :
    ∃ r, mkUnion σ [.pc p, .pc q] = .ok r ∧ r.WF ∧ r.Disj ∧
      ∀ v, v ∈ r.den ↔ v ∈ p.den ∨ v ∈ q.den := by
  obtain ⟨u, hu⟩ := mkUnion_total (σ := σ) (vs := [.pc p, .pc q]) (by simp)
    (by cases p <;> cases q <;> simp [List.filterMap] <;> simp at hn)
    (by cases p <;> cases q <;> simp [List.filterMap] <;> simp at hf)
    ⟨p, q, hne, by simp, by simp⟩
  obtain ⟨u', h1, h2, -, -, -, h6⟩ := mkUnion_ok hu
  cases h1
  simp only [List.mem_cons, SSet.pc.injEq, List.not_mem_nil, or_false] at h2 h6
  refine ⟨_, hu, h6 ?_, ?_, ?_⟩
  · rintro r (rfl | rfl) <;> assumption
  · intro r hr r' hr' hrr v
    rw [h2] at hr hr'
    rcases hr with rfl | rfl <;> rcases hr' with rfl | rfl
    · exact absurd rfl hrr
    · exact hd v
    · rw [and_comm]; exact hd v
    · exact absurd rfl hrr
  · intro v; simp only [SSet.mem_den_un, h2]; grind

theorem Ivl.Sep.disj {i j : Ivl E} (hi : i.WF) (hj : j.WF) (h : i.Sep j) (x : E) : ¬ (i.Mem x ∧ j.Mem x) := by
  unfold Ivl.Sep at h; unfold Ivl.Mem; have := hi.1; have := hj.1; grind

theorem finOrIvl_OrOK (σ : Orders E) (s : Finset E) (i : Ivl E) (hs : s.Nonempty) (hi : i.WF) :
    ∃ r, finOrIvl σ s i = .ok r ∧ OrOK (Piece.fin s).den (Piece.ivl i).den r := by
  obtain ⟨t, j, hA, ⟨ht, hr⟩ | ⟨ht, u, hr, hu, -⟩⟩ := finOrIvl_spec σ s i hi
  · refine ⟨_, hr, hA.wf, trivial, ?_, ?_⟩
    · intro v; cases v <;> simp
      intro h; have := hA.back _ h; tauto
    · intro v hv; cases v <;> simp
      rintro (h | h)
      · have := hA.cover _ hv h; simpa [ht] using this
      · exact hA.mono _ h
  · obtain ⟨r, e1, e2, e3, e4⟩ := mkUnion_pair σ (.fin t) (.ivl j) (Finset.nonempty_iff_ne_empty.2 ht)
      hA.wf (by simp) (by simp) (by simp)
      (by intro v; cases v <;> simp; exact hA.notMem _)
    rw [hu] at e1; cases e1
    refine ⟨_, hr, e2, e3, ?_, ?_⟩
    · intro v; rw [e4]; cases v <;> simp
      rintro (h | h)
      · exact .inl (hA.sub h)
      · have := hA.back _ h; tauto
    · intro v hv; rw [e4]; cases v <;> simp
      rintro (h | h)
      · have := hA.cover _ hv h; tauto
      · exact .inr (hA.mono _ h)

theorem OrOK.symm {s t : Set (Val E)} {r : SSet E} (h : OrOK s t r) : OrOK t s r :=
  ⟨h.wf, h.disj, fun v hv => (h.sub v hv).symm, fun v hp hv => h.sup v hp hv.symm⟩

theorem OrOK.of_iff {s t : Set (Val E)} {r : SSet E} (h1 : r.WF) (h2 : r.Disj)
    (h : ∀ v, v ∈ r.den ↔ v ∈ s ∨ v ∈ t) : OrOK s t r :=
  ⟨h1, h2, fun v hv => (h v).1 hv, fun v _ hv => (h v).2 hv⟩

theorem Piece.or_spec (σ : Orders E) (p q : Piece E) (hp : p.WF) (hq : q.WF) :
    ∃ r, Piece.or σ p q = .ok r ∧ OrOK p.den q.den r := by
  cases p with
  | nom n =>
    cases q with
    | nom m =>
      obtain ⟨r, e1, e2, e3⟩ := Nom.or_spec n m hp hq
      refine ⟨.pc (.nom r), by simp [Piece.or, e1, bind, Except.bind], .of_iff e2 trivial ?_⟩
      intro v; cases v <;> simp [Piece.str_mem_den_nom, e3]
    | fin s =>
      obtain ⟨r, e1, e2, e3, e4⟩ := mkUnion_pair σ (.nom n) (.fin s) hp hq (by simp) (by simp) (by simp)
        (by intro v; cases v <;> simp)
      exact ⟨r, e1, .of_iff e2 e3 e4⟩
    | ivl s =>
      obtain ⟨r, e1, e2, e3, e4⟩ := mkUnion_pair σ (.nom n) (.ivl s) hp hq (by simp) (by simp) (by simp)
        (by intro v; cases v <;> simp)
      exact ⟨r, e1, .of_iff e2 e3 e4⟩
  | fin s =>
    cases q with
    | nom n =>
      obtain ⟨r, e1, e2, e3, e4⟩ := mkUnion_pair σ (.fin s) (.nom n) hp hq (by simp) (by simp) (by simp)
        (by intro v; cases v <;> simp)
      exact ⟨r, e1, .of_iff e2 e3 e4⟩
    | fin t =>
      refine ⟨_, rfl, .of_iff (Finset.Nonempty.mono Finset.subset_union_left hp) trivial ?_⟩
      intro v; cases v <;> simp
    | ivl i => exact finOrIvl_OrOK σ s i hp hq
  | ivl i =>
    cases q with
    | nom n =>
      obtain ⟨r, e1, e2, e3, e4⟩ := mkUnion_pair σ (.nom n) (.ivl i) hq hp (by simp) (by simp) (by simp)
        (by intro v; cases v <;> simp)
      exact ⟨r, e1, (OrOK.of_iff e2 e3 e4).symm⟩
    | fin t =>
      obtain ⟨r, h1, h2⟩ := finOrIvl_OrOK σ t i hq hp
      exact ⟨r, h1, h2.symm⟩
    | ivl j =>
      rcases Ivl.or_spec σ i j hp hq with ⟨k, h1, h2, h3, -⟩ | ⟨h1, h2⟩
      · refine ⟨_, h1, .of_iff h2 trivial ?_⟩
        intro v; cases v <;> simp [h3]
      · obtain ⟨r, e1, e2, e3, e4⟩ := mkUnion_pair σ (.ivl i) (.ivl j) hp hq
          (by intro h; cases h; have := hp.1; unfold Ivl.Sep at h2; grind) (by simp) (by simp)
          (by intro v; cases v <;> simp; have := h2.disj hp hq; grind)
        exact ⟨r, by simp only [Piece.or, h1, e1], .of_iff e2 e3 e4⟩

theorem Un.WF.ivl_wf {u : Un E} (h : u.WF) {i} (hi : i ∈ u.intervals) : i.WF :=
  h.pieces (.ivl i) ((h.mem_values _).2 (.inr (.inr ⟨i, hi, rfl⟩)))
theorem Un.WF.nom_wf {u : Un E} (h : u.WF) {i} (hi : u.nominals = some i) : i.WF :=
  h.pieces (.nom i) ((h.mem_values _).2 (.inl ⟨i, hi, rfl⟩))
theorem Un.WF.fin_wf {u : Un E} (h : u.WF) {i} (hi : u.atoms = some i) : i.Nonempty :=
  h.pieces (.fin i) ((h.mem_values _).2 (.inr (.inl ⟨i, hi, rfl⟩)))

theorem Un.WF.mem_den {u : Un E} (h : u.WF) (v : Val E) :
    v ∈ (SSet.un u).den ↔ (∃ m, u.nominals = some m ∧ v ∈ (Piece.nom m).den) ∨
        (∃ x, v = .num x ∧ ((∃ i ∈ u.intervals, i.Mem x) ∨ x ∈ ofo u.atoms)) := by
  simp only [SSet.mem_den_un, h.mem_values]
  constructor
  · rintro ⟨p, ⟨m, hm, rfl⟩ | ⟨s, hs, rfl⟩ | ⟨i, hi, rfl⟩, hv⟩
    · exact .inl ⟨m, hm, hv⟩
    · obtain ⟨x, rfl, hx⟩ := hv; exact .inr ⟨x, rfl, .inr (by rw [hs]; exact hx)⟩
    · obtain ⟨x, rfl, hx⟩ := hv; exact .inr ⟨x, rfl, .inl ⟨i, hi, hx⟩⟩
  · rintro (⟨m, hm, hv⟩ | ⟨x, rfl, ⟨i, hi, hx⟩ | hx⟩)
    · exact ⟨_, .inl ⟨m, hm, rfl⟩, hv⟩
    · exact ⟨_, .inr (.inr ⟨i, hi, rfl⟩), by simpa using hx⟩
    · rcases ht : u.atoms with _ | s
      · simp [ht] at hx
      · exact ⟨_, .inr (.inl ⟨s, rfl, rfl⟩), by simpa [ht] using hx⟩

/-- `Union | FiniteNominal` always returns. -/
theorem Un.orPiece_nom (σ : Orders E) (u : Un E) (hu : u.WF) (hd : (SSet.un u).Disj) (n : Nom) (hn : n.WF) :
    ∃ r, u.orPiece σ (.nom n) = .ok r ∧ OrOK (SSet.un u).den (Piece.nom n : Piece E).den r := by
  have hm : ∃ m, orOptNom u.nominals n = .ok m ∧ m.WF ∧
      ∀ s, m.has s = true ↔ (∃ k, u.nominals = some k ∧ k.has s = true) ∨ n.has s = true := by
    rcases hk : u.nominals with _ | k
    · exact ⟨n, rfl, hn, by simp⟩
    · obtain ⟨r, e1, e2, e3⟩ := Nom.or_spec k n (hu.nom_wf hk) hn
      exact ⟨r, e1, e2, by simp [e3]⟩
  obtain ⟨m, hm1, hm2, hm3⟩ := hm
  have hform : u.orPiece σ (.nom n) =
      mkUnion σ (.pc (.nom m) :: optFin u.atoms :: u.intervals.map (fun i => .pc (.ivl i))) := by
    simp [Un.orPiece, hm1, bind, Except.bind]
  rw [hform]
  set vs : List (SSet E) := .pc (.nom m) :: optFin u.atoms :: u.intervals.map (fun i => .pc (.ivl i)) with hvs
  have hmem : ∀ p, SSet.pc p ∈ vs ↔ p = .nom m ∨ (∃ s, u.atoms = some s ∧ p = .fin s) ∨
      (∃ i ∈ u.intervals, p = .ivl i) := by
    intro p; rw [hvs]; rcases u.atoms with _ | s <;> simp [optFin, eq_comm]
  have hmap : u.intervals.map (fun i => SSet.pc (.ivl i)) = (u.intervals.map Piece.ivl).map SSet.pc := by simp
  obtain ⟨w, hw⟩ : ∃ w, mkUnion σ vs = .ok (.un w) := by
    apply mkUnion_total
    · intro w; rw [hvs]; rcases u.atoms with _ | s <;> simp [optFin]
    · rw [hvs, hmap]; rcases u.atoms with _ | s <;> 
        simp only [optFin, List.filterMap_cons, SSet.piece?_pc, SSet.piece?_empty, filterMap_piece?_map, 
          filterMap_nom?_ivl, Piece.nom?_nom, Piece.nom?_fin] <;> simp
    · rw [hvs, hmap]; rcases u.atoms with _ | s <;> 
        simp only [optFin, List.filterMap_cons, SSet.piece?_pc, SSet.piece?_empty, filterMap_piece?_map, 
          filterMap_fin?_ivl, Piece.fin?_nom, Piece.fin?_fin] <;> simp
    · have h2 := hu.two_le
      have hnd := hu.nodup
      obtain ⟨q, hq, hqn⟩ : ∃ q ∈ u.values, ∀ k, q ≠ .nom k := by
        match hl : u.values, h2, hnd with
        | a :: b :: _, _, hnd =>
          by_contra hcon
          push Not at hcon
          obtain ⟨k, hk⟩ := hcon a (by simp)
          obtain ⟨k', hk'⟩ := hcon b (by simp)
          have ha := (hu.mem_values a).1 (by rw [hl]; simp)
          have hb := (hu.mem_values b).1 (by rw [hl]; simp)
          subst hk hk'
          simp at ha hb
          rw [ha] at hb; cases hb; simp at hnd
      refine ⟨.nom m, q, fun h => hqn m h.symm, by rw [hmem]; simp, ?_⟩
      rw [hmem]
      rcases (hu.mem_values q).1 hq with ⟨k, -, rfl⟩ | h | h
      · exact absurd rfl (hqn k)
      · exact .inr (.inl h)
      · exact .inr (.inr h)
  obtain ⟨w', h1, h2, -, -, -, h6⟩ := mkUnion_ok hw
  cases h1
  refine ⟨_, hw, .of_iff (h6 ?_) ?_ ?_⟩
  · intro p hp
    rcases (hmem p).1 hp with rfl | ⟨s, hs, rfl⟩ | ⟨i, hi, rfl⟩
    · exact hm2
    · exact hu.fin_wf hs
    · exact hu.ivl_wf hi
  · intro p hp q hq hpq v
    rw [h2, hmem] at hp hq
    have hd' : ∀ p q : Piece E, ((∃ s, u.atoms = some s ∧ p = .fin s) ∨ (∃ i ∈ u.intervals, p = .ivl i)) →
      ((∃ s, u.atoms = some s ∧ q = .fin s) ∨ (∃ i ∈ u.intervals, q = .ivl i)) → p ≠ q → 
      ¬ (v ∈ p.den ∧ v ∈ q.den) := by
      intro p q hp hq hpq
      exact hd p ((hu.mem_values p).2 (.inr hp)) q ((hu.mem_values q).2 (.inr hq)) hpq v
    rcases hp with rfl | hp
    · rcases hq with rfl | hq
      · exact absurd rfl hpq
      · apply Piece.nom_ivl_disj; rcases hq with ⟨_, _, rfl⟩ | ⟨_, _, rfl⟩ <;> simp
    · rcases hq with rfl | hq
      · rw [and_comm]; apply Piece.nom_ivl_disj; rcases hp with ⟨_, _, rfl⟩ | ⟨_, _, rfl⟩ <;> simp
      · exact hd' p q hp hq hpq
  · intro v
    rw [hu.mem_den]
    simp only [SSet.mem_den_un, h2, hmem]
    constructor
    · rintro ⟨p, rfl | ⟨s, hs, rfl⟩ | ⟨i, hi, rfl⟩, hv⟩
      · obtain ⟨s, rfl, hx⟩ := id hv
        rw [Piece.str_mem_den_nom, hm3] at hv
        rcases hv with ⟨k, hk, hv⟩ | hv
        · exact .inl (.inl ⟨k, hk, (Piece.str_mem_den_nom _ _).2 hv⟩)
        · exact .inr ((Piece.str_mem_den_nom _ _).2 hv)
      · obtain ⟨x, rfl, hx⟩ := hv; exact .inl (.inr ⟨x, rfl, .inr (by rw [hs]; exact hx)⟩)
      · obtain ⟨x, rfl, hx⟩ := hv; exact .inl (.inr ⟨x, rfl, .inl ⟨i, hi, hx⟩⟩)
    · rintro ((⟨k, hk, hv⟩ | ⟨x, rfl, ⟨i, hi, hx⟩ | hx⟩) | hv)
      · obtain ⟨s, rfl, hx⟩ := id hv
        refine ⟨_, .inl rfl, ?_⟩
        rw [Piece.str_mem_den_nom] at *
        rw [hm3]; exact .inl ⟨k, hk, hv⟩
      · exact ⟨_, .inr (.inr ⟨i, hi, rfl⟩), by simpa using hx⟩
      · rcases ht : u.atoms with _ | s
        · simp [ht] at hx
        · exact ⟨_, .inr (.inl ⟨s, rfl, rfl⟩), by simpa [ht] using hx⟩
      · obtain ⟨s, rfl, hx⟩ := id hv
        refine ⟨_, .inl rfl, ?_⟩
        rw [Piece.str_mem_den_nom] at *
        rw [hm3]; exact .inr hv

/-- Common part of `Union | FiniteReal` and `Union | Interval`. -/
theorem Un.orReal_aux (σ : Orders E) (u : Un E) (hu : u.WF) (l : List (Ivl E)) (fin : Option (Finset E))
    (hne : l ≠ []) (hl : ∀ i ∈ l, i.WF) (hf : ∀ s, fin = some s → s ≠ ∅) :
    ∃ r, (unionIntervalsFinite σ l fin >>= fun blocks => finishBlocks σ u.nominals blocks) = .ok r ∧
      OrOK {v | ∃ m, u.nominals = some m ∧ v ∈ (Piece.nom m : Piece E).den}
        {v | ∃ x, v = .num x ∧ ((∃ i ∈ l, i.Mem x) ∨ x ∈ ofo fin)} r := by
  obtain ⟨bs, t, e1, e2, e3, e4, e5, e6, e7, e8, e9, e10⟩ := unionIntervalsFinite_spec σ l fin hne hl hf
  obtain ⟨r, f1, f2, f3, f4⟩ := finishBlocks_spec σ u.nominals bs t e2 e3 e4
    (fun m hm => hu.nom_wf hm) e5 e6
  refine ⟨r, by rw [e1]; exact f1, f2, f3, ?_, ?_⟩
  · intro v hv
    rcases (f4 v).1 hv with h | ⟨x, rfl, h | h⟩
    · exact .inl h
    · exact .inr ⟨x, rfl, e8 x h⟩
    · exact .inr ⟨x, rfl, .inr (e7 h)⟩
  · rintro v hp (h | ⟨x, rfl, h | h⟩)
    · exact (f4 v).2 (.inl h)
    · exact (f4 _).2 (.inr ⟨x, rfl, .inl (e9 x h)⟩)
    · exact (f4 _).2 (.inr ⟨x, rfl, e10 x hp h⟩)

theorem Un.orPiece_ivl (σ : Orders E) (u : Un E) (hu : u.WF) (i : Ivl E) (hi : i.WF) :
    ∃ r, u.orPiece σ (.ivl i) = .ok r ∧ OrOK (SSet.un u).den (Piece.ivl i).den r := by
  obtain ⟨r, h1, h2⟩ := Un.orReal_aux σ u hu (u.intervals ++ [i]) u.atoms (by simp)
    (by intro j hj; simp at hj; rcases hj with hj | rfl; exacts [hu.ivl_wf hj, hi])
    (fun s hs => (hu.fin_wf hs).ne_empty)
  refine ⟨r, h1, h2.wf, h2.disj, ?_, ?_⟩
  · intro v hv
    have := h2.sub v hv
    rw [hu.mem_den]
    rcases this with h | ⟨x, rfl, ⟨j, hj, hx⟩ | h⟩
    · exact .inl (.inl h)
    · simp at hj; rcases hj with hj | rfl
      · exact .inl (.inr ⟨x, rfl, .inl ⟨j, hj, hx⟩⟩)
      · exact .inr (by simpa using hx)
    · exact .inl (.inr ⟨x, rfl, .inr h⟩)
  · intro v hp hv
    apply h2.sup v hp
    rw [hu.mem_den] at hv
    rcases hv with (h | ⟨x, rfl, ⟨j, hj, hx⟩ | h⟩) | ⟨x, rfl, hx⟩
    · exact .inl h
    · exact .inr ⟨x, rfl, .inl ⟨j, by simp [hj], hx⟩⟩
    · exact .inr ⟨x, rfl, .inr h⟩
    · exact .inr ⟨x, rfl, .inl ⟨i, by simp, hx⟩⟩

theorem ofo_orOptFin (k : Option (Finset E)) (s : Finset E) : orOptFin k s = ofo k ∪ s := by
  cases k <;> simp [orOptFin]

theorem Un.orPiece_fin (σ : Orders E) (u : Un E) (hu : u.WF) (s : Finset E) (hs : s.Nonempty)
    (hne : u.intervals ≠ []) :
    ∃ r, u.orPiece σ (.fin s) = .ok r ∧ OrOK (SSet.un u).den (Piece.fin s).den r := by
  obtain ⟨r, h1, h2⟩ := Un.orReal_aux σ u hu u.intervals (some (orOptFin u.atoms s)) hne
    (fun i hi => hu.ivl_wf hi)
    (by intro s' h; cases h; rw [ofo_orOptFin]
        exact (hs.mono Finset.subset_union_right).ne_empty)
  refine ⟨r, h1, h2.wf, h2.disj, ?_, ?_⟩
  · intro v hv
    have := h2.sub v hv
    rw [hu.mem_den]
    rcases this with h | ⟨x, rfl, h | h⟩
    · exact .inl (.inl h)
    · exact .inl (.inr ⟨x, rfl, .inl h⟩)
    · simp [ofo_orOptFin] at h
      rcases h with h | h
      · exact .inl (.inr ⟨x, rfl, .inr h⟩)
      · exact .inr (by simpa using h)
  · intro v hp hv
    apply h2.sup v hp
    rw [hu.mem_den] at hv
    rcases hv with (h | ⟨x, rfl, h | h⟩) | ⟨x, rfl, hx⟩
    · exact .inl h
    · exact .inr ⟨x, rfl, .inl h⟩
    · exact .inr ⟨x, rfl, .inr (by simp [ofo_orOptFin, h])⟩
    · exact .inr ⟨x, rfl, .inr (by simp [ofo_orOptFin, hx])⟩

/-- `Union | FiniteReal` raises `IndexError` when the union has no interval. -/
theorem Un.orPiece_fin_error (σ : Orders E) (u : Un E) (s : Finset E) (hne : u.intervals = []) :
    u.orPiece σ (.fin s) = .error .index := by
  simp [Un.orPiece, hne, unionIntervalsFinite, unionFiniteLoop, unionIntervals, bind, Except.bind]

theorem SSet.orPiece_spec (σ : Orders E) (s : SSet E) (p : Piece E) (hs : s.WF) (hd : s.Disj) (hp : p.WF)
    {r : SSet E} (h : s.orPiece σ p = .ok r) : OrOK s.den p.den r := by
  cases s with
  | empty =>
    simp [SSet.orPiece] at h
    subst h
    exact .of_iff hp trivial (by simp)
  | pc q =>
    obtain ⟨r', h1, h2⟩ := Piece.or_spec σ q p hs hp
    simp only [SSet.orPiece, h1, Except.ok.injEq] at h
    subst h; exact h2
  | un u =>
    simp only [SSet.orPiece] at h
    cases p with
    | nom n =>
      obtain ⟨r', h1, h2⟩ := Un.orPiece_nom σ u hs hd n hp
      rw [h1] at h; cases h; exact h2
    | ivl n =>
      obtain ⟨r', h1, h2⟩ := Un.orPiece_ivl σ u hs n hp
      rw [h1] at h; cases h; exact h2
    | fin n =>
      by_cases hne : u.intervals = []
      · rw [Un.orPiece_fin_error σ u n hne] at h; cases h
      · obtain ⟨r', h1, h2⟩ := Un.orPiece_fin σ u hs n hp hne
        rw [h1] at h; cases h; exact h2

theorem OrOK.foldl (σ : Orders E) (l : List (Piece E)) (hl : ∀ p ∈ l, p.WF) :
    ∀ (s : SSet E) (_ : s.WF) (_ : s.Disj) {r : SSet E},
      l.foldlM (fun s p => s.orPiece σ p) s = .ok r → OrOK s.den {v | ∃ p ∈ l, v ∈ p.den} r := by
  induction l with
  | nil =>
    intro s hs hd r h
    simp [pure, Except.pure] at h; subst h
    exact .of_iff hs hd (by simp)
  | cons p l ih =>
    intro s hs hd r h
    simp only [List.foldlM_cons, bind, Except.bind] at h
    split at h
    · cases h
    · rename_i s' hs'
      have h1 := SSet.orPiece_spec σ s p hs hd (hl p (by simp)) hs'
      have h2 := ih (fun q hq => hl q (by simp [hq])) s' h1.wf h1.disj h
      refine ⟨h2.wf, h2.disj, ?_, ?_⟩
      · intro v hv
        rcases h2.sub v hv with h | ⟨q, hq, hv'⟩
        · rcases h1.sub v h with h | h
          · exact .inl h
          · exact .inr ⟨p, by simp, h⟩
        · exact .inr ⟨q, by simp [hq], hv'⟩
      · rintro v hp (h | ⟨q, hq, hv'⟩)
        · exact h2.sup v hp (.inl (h1.sup v hp (.inl h)))
        · rcases List.mem_cons.1 hq with rfl | hq
          · exact h2.sup v hp (.inl (h1.sup v hp (.inr hv')))
          · exact h2.sup v hp (.inr ⟨q, hq, hv'⟩)

theorem SSet.or_spec (σ : Orders E) (s t : SSet E) (hs : s.WF) (hsd : s.Disj) (ht : t.WF) (htd : t.Disj)
    {r : SSet E} (h : SSet.or σ s t = .ok r) : OrOK s.den t.den r := by
  cases s with
  | empty =>
    simp [SSet.or] at h; subst h
    exact .of_iff ht htd (by simp)
  | pc p =>
    cases t with
    | empty => simp [SSet.or] at h; subst h; exact .of_iff hs hsd (by simp)
    | pc q =>
      obtain ⟨r', h1, h2⟩ := Piece.or_spec σ p q hs ht
      simp only [SSet.or, h1, Except.ok.injEq] at h
      subst h; exact h2
    | un u => exact (SSet.orPiece_spec σ (.un u) p ht htd hs h).symm
  | un u =>
    cases t with
    | empty => simp [SSet.or] at h; subst h; exact .of_iff hs hsd (by simp)
    | pc q => exact SSet.orPiece_spec σ (.un u) q hs hsd ht h
    | un w => exact OrOK.foldl σ w.values ht.pieces (.un u) hs hsd h

end Sppl
