import Verif.Sets.IvlOr

set_option linter.all false

namespace Sppl
variable {E : Type} [LinearOrder E] [BoundedOrder E]

@[simp] theorem SSet.piece?_eq_some {s : SSet E} {p : Piece E} : s.piece? = some p ↔ s = .pc p := by
  cases s <;> simp [SSet.piece?]
@[simp] theorem Piece.nom?_eq_some {p : Piece E} {n : Nom} : p.nom? = some n ↔ p = .nom n := by
  cases p <;> simp [Piece.nom?]
@[simp] theorem Piece.fin?_eq_some {p : Piece E} {n} : p.fin? = some n ↔ p = .fin n := by
  cases p <;> simp [Piece.fin?]
@[simp] theorem Piece.ivl?_eq_some {p : Piece E} {n} : p.ivl? = some n ↔ p = .ivl n := by
  cases p <;> simp [Piece.ivl?]

@[simp] theorem SSet.piece?_pc (p : Piece E) : (SSet.pc p).piece? = some p := rfl
@[simp] theorem SSet.piece?_empty : (SSet.empty : SSet E).piece? = none := rfl
@[simp] theorem Piece.nom?_nom (n : Nom) : (Piece.nom n : Piece E).nom? = some n := rfl
@[simp] theorem Piece.nom?_fin (n : Finset E) : (Piece.fin n : Piece E).nom? = none := rfl
@[simp] theorem Piece.nom?_ivl (n : Ivl E) : (Piece.ivl n : Piece E).nom? = none := rfl
@[simp] theorem Piece.fin?_nom (n : Nom) : (Piece.nom n : Piece E).fin? = none := rfl
@[simp] theorem Piece.fin?_fin (n : Finset E) : (Piece.fin n : Piece E).fin? = some n := rfl
@[simp] theorem Piece.fin?_ivl (n : Ivl E) : (Piece.ivl n : Piece E).fin? = none := rfl
@[simp] theorem filterMap_piece?_map (l : List (Piece E)) :
    (l.map SSet.pc).filterMap SSet.piece? = l := by
  induction l <;> simp_all
@[simp] theorem filterMap_nom?_ivl (l : List (Ivl E)) :
    (l.map Piece.ivl).filterMap Piece.nom? = [] := by
  induction l <;> simp_all
@[simp] theorem filterMap_fin?_ivl (l : List (Ivl E)) :
    (l.map Piece.ivl).filterMap Piece.fin? = [] := by
  induction l <;> simp_all

theorem head?_of_length_le_one {β : Type} {l : List β} (h : ¬ 1 < l.length) (x : β) :
    l.head? = some x ↔ x ∈ l := by
  match l, h with
  | [], _ => simp
  | [y], _ => simp [eq_comm]
  | _ :: _ :: _, h => simp at h

/-- Everything `Union.__init__` guarantees when it returns. -/
theorem mkUnion_ok {σ : Orders E} {vs : List (SSet E)} {r : SSet E} (h : mkUnion σ vs = .ok r) :
    ∃ u, r = .un u ∧ (∀ p, p ∈ u.values ↔ .pc p ∈ vs) ∧
      (∀ n, u.nominals = some n ↔ .pc (.nom n) ∈ vs) ∧
      (∀ s, u.atoms = some s ↔ .pc (.fin s) ∈ vs) ∧
      (∀ i, i ∈ u.intervals ↔ .pc (.ivl i) ∈ vs) ∧
      ((∀ p, .pc p ∈ vs → p.WF) → u.WF) := by
  unfold mkUnion at h
  split at h; · cases h
  dsimp only at h
  split at h; · cases h
  split at h; · cases h
  split at h; · cases h
  split at h; · cases h
  rename_i hany hne hn ha hl
  cases h
  set ne := vs.filterMap SSet.piece? with hne_def
  have hmem : ∀ p, p ∈ ne ↔ .pc p ∈ vs := by
    intro p; simp [hne_def, List.mem_filterMap]
  have h1 : ∀ n, (ne.filterMap Piece.nom?).head? = some n ↔ .pc (.nom n) ∈ vs := by
    intro n; rw [head?_of_length_le_one hn, List.mem_filterMap, ← hmem]
    simp
  have h2 : ∀ s, (ne.filterMap Piece.fin?).head? = some s ↔ .pc (.fin s) ∈ vs := by
    intro n; rw [head?_of_length_le_one ha, List.mem_filterMap, ← hmem]
    simp
  have h3 : ∀ i, i ∈ σ.ivls (ne.filterMap Piece.ivl?) ↔ .pc (.ivl i) ∈ vs := by
    intro n; rw [(σ.ivls_perm _).mem_iff, List.mem_dedup, List.mem_filterMap, ← hmem]
    simp
  have h4 : ∀ p, p ∈ σ.vals ((ne.filterMap Piece.nom?).map .nom ++
      (ne.filterMap Piece.fin?).map .fin ++ (σ.ivls (ne.filterMap Piece.ivl?)).map .ivl) ↔
      .pc p ∈ vs := by
    intro p
    rw [(σ.vals_perm _).mem_iff, List.mem_dedup]
    simp only [List.mem_append, List.mem_map, h3]
    rw [← hmem]
    constructor
    · rintro ((⟨n, hn', rfl⟩ | ⟨n, hn', rfl⟩) | ⟨n, hn', rfl⟩)
      · rw [hmem, ← h1, head?_of_length_le_one hn]; exact hn'
      · rw [hmem, ← h2, head?_of_length_le_one ha]; exact hn'
      · rw [hmem]; exact hn'
    · intro hp
      cases p with
      | nom n => left; left; exact ⟨n, by rw [← head?_of_length_le_one hn, h1, ← hmem]; exact hp, rfl⟩
      | fin n => left; right; exact ⟨n, by rw [← head?_of_length_le_one ha, h2, ← hmem]; exact hp, rfl⟩
      | ivl n => right; exact ⟨n, by rw [← hmem]; exact hp, rfl⟩
  refine ⟨_, rfl, h4, h1, h2, h3, ?_⟩
  intro hwf
  refine ⟨?_, ?_, ?_, ?_, ?_, ?_⟩
  · intro p
    dsimp only
    rw [h4]
    simp only [h1, h2, h3]
    cases p <;> simp
  · exact (σ.vals_perm _).nodup_iff.2 (List.nodup_dedup _)
  · exact (σ.ivls_perm _).nodup_iff.2 (List.nodup_dedup _)
  · simpa using hl
  · intro p hp; exact hwf p ((h4 p).1 hp)
  · intro p; dsimp only; rw [h4, hmem]

/-- When `Union.__init__` succeeds. -/
theorem mkUnion_total {σ : Orders E} {vs : List (SSet E)} (hu : ∀ u, .un u ∉ vs)
    (hn : (vs.filterMap SSet.piece? |>.filterMap Piece.nom?).length ≤ 1)
    (ha : (vs.filterMap SSet.piece? |>.filterMap Piece.fin?).length ≤ 1)
    (h2 : ∃ p q, p ≠ q ∧ .pc p ∈ vs ∧ .pc q ∈ vs) :
    ∃ u, mkUnion σ vs = .ok (.un u) := by
  unfold mkUnion
  obtain ⟨p, q, hpq, hp, hq⟩ := h2
  have hany : vs.any SSet.isUnion = false := by
    rw [List.any_eq_false]; intro s hs; cases s <;> simp [SSet.isUnion]; exact absurd hs (hu _)
  have hmem : ∀ p, p ∈ vs.filterMap SSet.piece? ↔ .pc p ∈ vs := by
    intro p; simp [List.mem_filterMap]
  set ne := vs.filterMap SSet.piece? with hne_def
  rw [hany]
  have hne : ne ≠ [] := List.ne_nil_of_mem ((hmem p).2 hp)
  simp only [Bool.false_eq_true, if_false, hne, not_lt.2 hn, not_lt.2 ha]
  set l := (ne.filterMap Piece.nom?).map Piece.nom ++
      (ne.filterMap Piece.fin?).map Piece.fin ++ (σ.ivls (ne.filterMap Piece.ivl?)).map Piece.ivl with hl
  have hml : ∀ p, p ∈ ne → p ∈ l := by
    intro p hp
    simp only [hl, List.mem_append, List.mem_map, List.mem_filterMap, (σ.ivls_perm _).mem_iff, List.mem_dedup]
    cases p with
    | nom n => left; left; exact ⟨n, ⟨_, hp, rfl⟩, rfl⟩
    | fin n => left; right; exact ⟨n, ⟨_, hp, rfl⟩, rfl⟩
    | ivl n => right; exact ⟨n, ⟨_, hp, rfl⟩, rfl⟩
  have hlen : ¬ (σ.vals l).length < 2 := by
    rw [(σ.vals_perm l).length_eq, not_lt]
    have : [p, q].Nodup := by simp [hpq]
    have hs : [p, q] ⊆ l.dedup := by
      intro x hx; rw [List.mem_dedup]; apply hml; rw [hmem]
      simp at hx; rcases hx with rfl | rfl <;> assumption
    simpa using (this.subperm hs).length_le
  rw [if_neg hlen]
  exact ⟨_, rfl⟩

end Sppl
