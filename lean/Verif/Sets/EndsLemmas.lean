import Verif.Sets.Or3Lemmas
import Verif.Sets.AndLemmas
import Verif.Sets.InvertLemmas

set_option linter.all false

/-!
# The operations on sets introduce no new end points (helper lemmas)
-/

namespace Sppl
variable {E : Type} [LinearOrder E] [BoundedOrder E]

/-- The end points and atoms are in `A`, the strings in `B`. -/
def Piece.Ends (A : Finset E) (B : Finset String) : Piece E → Prop
  | .nom n => n.vals ⊆ B
  | .fin s => s ⊆ A
  | .ivl i => i.a ∈ A ∧ i.b ∈ A

/-- See `Piece.Ends`. -/
def SSet.Ends (A : Finset E) (B : Finset String) : SSet E → Prop
  | .empty => True
  | .pc p => p.Ends A B
  | .un u => ∀ p ∈ u.values, p.Ends A B

variable {A : Finset E} {B : Finset String}

theorem mkIvl_ab {a b : E} {lo ro : Bool} {i : Ivl E} (h : mkIvl a b lo ro = .ok i) : i.a = a ∧ i.b = b := by
  unfold mkIvl at h
  split at h
  · cases h; exact ⟨rfl, rfl⟩
  · cases h

theorem mkUnion_ends {σ : Orders E} {vs : List (SSet E)} {r : SSet E} (h : mkUnion σ vs = .ok r) (hv : ∀ p, .pc p ∈ vs → p.Ends A B) : r.Ends A B := by
  obtain ⟨u, rfl, h1, -⟩ := mkUnion_ok h
  intro p hp
  exact hv p ((h1 p).1 hp)

theorem finOrEmpty_ends {s : Finset E} (h : s ⊆ A) : (finOrEmpty s).Ends A B := by
  unfold finOrEmpty
  split
  · trivial
  · exact h

theorem nomOrEmpty_ends {s : Finset String} (h : s ⊆ B) {r : SSet E} (hr : nomOrEmpty s = .ok r) : r.Ends A B := by
  unfold nomOrEmpty at hr
  split at hr
  · cases hr; trivial
  · simp only [bind, Except.bind] at hr
    split at hr; · cases hr
    rename_i m hm
    cases hr
    unfold mkNom at hm
    split at hm
    · cases hm; exact h
    · cases hm

theorem mkNom_vals {s : Finset String} {b : Option Bool} {m : Nom} (h : mkNom s b = .ok m) : m.vals = s := by
  unfold mkNom at h
  split at h
  · cases h; rfl
  · cases h

theorem Nom.and_ends {n m : Nom} (hn : n.vals ⊆ B) (hm : m.vals ⊆ B) {r : SSet E} (h : Nom.and n m = .ok r) : r.Ends A B := by
  unfold Nom.and at h
  split at h
  · exact nomOrEmpty_ends ((Finset.filter_subset _ _).trans hn) h
  · split at h
    · exact nomOrEmpty_ends ((Finset.filter_subset _ _).trans hm) h
    · simp only [bind, Except.bind] at h
      split at h; · cases h
      rename_i k hk
      cases h
      simp only [SSet.Ends, Piece.Ends, mkNom_vals hk]
      exact Finset.union_subset hn hm

theorem Ivl.and_ends {i j : Ivl E} (hi : i.a ∈ A ∧ i.b ∈ A) (hj : j.a ∈ A ∧ j.b ∈ A) {r : SSet E} (h : Ivl.and i j = .ok r) : r.Ends A B ∧ ∀ u, r ≠ .un u := by
  unfold Ivl.and at h
  split at h; · cases h; exact ⟨hj, by simp⟩
  split at h; · cases h; exact ⟨hj, by simp⟩
  split at h; · cases h; exact ⟨hi, by simp⟩
  split at h
  · split at h
    · split at h
      · cases h; exact ⟨by simpa [SSet.Ends, Piece.Ends] using hj.1, by simp⟩
      · cases h; exact ⟨trivial, by simp⟩
    · simp only [bind, Except.bind] at h
      split at h; · cases h
      rename_i k hk
      cases h
      exact ⟨by simp only [SSet.Ends, Piece.Ends, (mkIvl_ab hk).1, (mkIvl_ab hk).2]; exact ⟨hj.1, hi.2⟩, by simp⟩
  split at h
  · split at h
    · split at h
      · cases h; exact ⟨by simpa [SSet.Ends, Piece.Ends] using hj.2, by simp⟩
      · cases h; exact ⟨trivial, by simp⟩
    · simp only [bind, Except.bind] at h
      split at h; · cases h
      rename_i k hk
      cases h
      exact ⟨by simp only [SSet.Ends, Piece.Ends, (mkIvl_ab hk).1, (mkIvl_ab hk).2]; exact ⟨hi.1, hj.2⟩, by simp⟩
  split at h
  · simp only [bind, Except.bind] at h
    split at h; · cases h
    rename_i k hk
    cases h
    exact ⟨by simp only [SSet.Ends, Piece.Ends, (mkIvl_ab hk).1, (mkIvl_ab hk).2]; exact hi, by simp⟩
  split at h
  · simp only [bind, Except.bind] at h
    split at h; · cases h
    rename_i k hk
    cases h
    exact ⟨by simp only [SSet.Ends, Piece.Ends, (mkIvl_ab hk).1, (mkIvl_ab hk).2]; exact hi, by simp⟩
  · cases h; exact ⟨trivial, by simp⟩

theorem finOrEmpty_not_un (s : Finset E) : ∀ u, finOrEmpty s ≠ .un u := by
  intro u h
  unfold finOrEmpty at h
  split at h <;> cases h

theorem nomOrEmpty_not_un {s : Finset String} {r : SSet E} (hr : nomOrEmpty s = .ok r) : ∀ u, r ≠ .un u := by
  rintro u rfl
  unfold nomOrEmpty at hr
  split at hr
  · cases hr
  · simp only [bind, Except.bind] at hr
    split at hr <;> cases hr

theorem Nom.and_not_un {n m : Nom} {r : SSet E} (h : Nom.and n m = .ok r) : ∀ u, r ≠ .un u := by
  unfold Nom.and at h
  split at h
  · exact nomOrEmpty_not_un h
  · split at h
    · exact nomOrEmpty_not_un h
    · simp only [bind, Except.bind] at h
      split at h; · cases h
      cases h; simp

theorem Piece.and_ends {p q : Piece E} (hp : p.Ends A B) (hq : q.Ends A B) {r : SSet E} (h : Piece.and p q = .ok r) : r.Ends A B ∧ ∀ u, r ≠ .un u := by
  cases p with
  | nom n =>
    cases q with
    | nom m => exact ⟨Nom.and_ends hp hq h, Nom.and_not_un h⟩
    | fin s => simp [Piece.and] at h; subst h; exact ⟨trivial, by simp⟩
    | ivl i => simp [Piece.and] at h; subst h; exact ⟨trivial, by simp⟩
  | fin s =>
    cases q with
    | nom m => simp [Piece.and] at h; subst h; exact ⟨trivial, by simp⟩
    | fin t => simp [Piece.and] at h; subst h; exact ⟨finOrEmpty_ends (Finset.inter_subset_left.trans hp), finOrEmpty_not_un _⟩
    | ivl i => simp [Piece.and] at h; subst h; exact ⟨finOrEmpty_ends ((Finset.filter_subset _ _).trans hp), finOrEmpty_not_un _⟩
  | ivl i =>
    cases q with
    | nom m => simp [Piece.and] at h; subst h; exact ⟨trivial, by simp⟩
    | fin t => simp [Piece.and] at h; subst h; exact ⟨finOrEmpty_ends ((Finset.filter_subset _ _).trans hq), finOrEmpty_not_un _⟩
    | ivl j => exact Ivl.and_ends hp hq h

theorem Ivl.merge_ends {i j : Ivl E} (hi : i.a ∈ A ∧ i.b ∈ A) (hj : j.a ∈ A ∧ j.b ∈ A) {r : SSet E} (h : Ivl.merge i j = .ok r) : r.Ends A B := by
  unfold Ivl.merge at h
  split at h
  · rename_i al am bm br hs
    simp only [bind, Except.bind] at h
    split at h; · cases h
    rename_i k hk
    cases h
    have hm : ∀ p ∈ [al, am, bm, br], p.1 ∈ A := by
      intro p hp
      rw [← hs, List.mem_insertionSort] at hp
      simp only [List.mem_cons, List.not_mem_nil, or_false] at hp
      rcases hp with rfl | rfl | rfl | rfl
      · exact hi.1
      · exact hi.2
      · exact hj.1
      · exact hj.2
    simp only [SSet.Ends, Piece.Ends, (mkIvl_ab hk).1, (mkIvl_ab hk).2]
    exact ⟨hm al (by simp), hm br (by simp)⟩
  · cases h

theorem Ivl.or_ends {σ : Orders E} {i j : Ivl E} (hi : i.a ∈ A ∧ i.b ∈ A) (hj : j.a ∈ A ∧ j.b ∈ A) {r : SSet E} (h : Ivl.or σ i j = .ok r) : r.Ends A B := by
  unfold Ivl.or at h
  split at h; · cases h; exact hi
  simp only [bind, Except.bind] at h
  split at h; · cases h
  split at h
  · refine mkUnion_ends h ?_
    intro p hp
    simp only [List.mem_cons, List.not_mem_nil, or_false, SSet.pc.injEq] at hp
    rcases hp with rfl | rfl
    · exact hi
    · exact hj
  · exact Ivl.merge_ends hi hj h

theorem finOrIvl_ends {σ : Orders E} {s : Finset E} {i : Ivl E} (hs : s ⊆ A) (hi : i.a ∈ A ∧ i.b ∈ A) {r : SSet E} (h : finOrIvl σ s i = .ok r) : r.Ends A B := by
  have key : ∀ (s : Finset E) (i : Ivl E), s ⊆ A → i.a ∈ A ∧ i.b ∈ A →
      (if s.filter (fun v => !i.has v) = ∅ then Except.ok (.pc (.ivl i)) else mkUnion σ [.pc (.fin (s.filter (fun v => !i.has v))), .pc (.ivl i)]) = .ok r → r.Ends A B := by
    intro s i hs hi h
    split at h
    · cases h; exact hi
    · refine mkUnion_ends h ?_
      intro p hp
      simp only [List.mem_cons, List.not_mem_nil, or_false, SSet.pc.injEq] at hp
      rcases hp with rfl | rfl
      · exact (Finset.filter_subset _ _).trans hs
      · exact hi
  unfold finOrIvl at h
  simp only [bind, Except.bind] at h
  split at h
  · split at h; · cases h
    rename_i j hj
    have h1 : s.erase i.a ⊆ A := (Finset.erase_subset _ _).trans hs
    have h2 : j.a ∈ A ∧ j.b ∈ A := by rw [(mkIvl_ab hj).1, (mkIvl_ab hj).2]; exact hi
    split at h
    · split at h; · cases h
      rename_i k hk
      exact key _ k ((Finset.erase_subset _ _).trans h1) (by rw [(mkIvl_ab hk).1, (mkIvl_ab hk).2]; exact h2) h
    · exact key _ _ h1 h2 h
  · split at h
    · split at h; · cases h
      rename_i k hk
      exact key _ k ((Finset.erase_subset _ _).trans hs) (by rw [(mkIvl_ab hk).1, (mkIvl_ab hk).2]; exact hi) h
    · exact key _ _ hs hi h

theorem Piece.or_ends {σ : Orders E} {p q : Piece E} (hp : p.Ends A B) (hq : q.Ends A B) {r : SSet E} (h : Piece.or σ p q = .ok r) : r.Ends A B := by
  have two : ∀ {p q : Piece E}, p.Ends A B → q.Ends A B → mkUnion σ [.pc p, .pc q] = .ok r → r.Ends A B := by
    intro p q hp hq h
    refine mkUnion_ends h ?_
    intro x hx
    simp only [List.mem_cons, List.not_mem_nil, or_false, SSet.pc.injEq] at hx
    rcases hx with rfl | rfl
    · exact hp
    · exact hq
  cases p with
  | nom n =>
    cases q with
    | nom m =>
      simp only [Piece.or, bind, Except.bind] at h
      split at h; · cases h
      rename_i k hk
      cases h
      unfold Nom.or at hk
      split at hk
      · simp only [SSet.Ends, Piece.Ends, mkNom_vals hk]; exact (Finset.filter_subset _ _).trans hp
      · split at hk
        · simp only [SSet.Ends, Piece.Ends, mkNom_vals hk]; exact (Finset.filter_subset _ _).trans hq
        · simp only [SSet.Ends, Piece.Ends, mkNom_vals hk]; exact Finset.union_subset hp hq
    | fin s => exact two hp hq h
    | ivl i => exact two hp hq h
  | fin s =>
    cases q with
    | nom m => exact two hp hq h
    | fin t => simp [Piece.or] at h; subst h; exact Finset.union_subset hp hq
    | ivl i => exact finOrIvl_ends hp hq h
  | ivl i =>
    cases q with
    | nom m => exact two hq hp h
    | fin t => exact finOrIvl_ends hq hp h
    | ivl j => exact Ivl.or_ends hp hq h

theorem finInvert_ends {σ : Orders E} {s : Finset E} (hs : s ⊆ A) (hb : ⊥ ∈ A) (ht : ⊤ ∈ A) {r : SSet E} (h : finInvert σ s = .ok r) :
    r.Ends A B ∧ ⊥ ∉ s ∧ ⊤ ∉ s := by
  unfold finInvert at h
  dsimp only at h
  have hsort : ∀ x, x ∈ s.sort (· ≤ ·) ↔ x ∈ s := fun x => Finset.mem_sort _
  have hpw : (s.sort (· ≤ ·)).Pairwise (· ≤ ·) := (Finset.sortedLT_sort s).pairwise.imp (fun h => le_of_lt h)
  revert h hsort hpw
  generalize s.sort (· ≤ ·) = vs
  intro h hsort hpw
  split at h
  · rename_i v0 rest vl hl
    simp only [bind, Except.bind] at h
    split at h; · cases h
    rename_i l hl'
    split at h; · cases h
    rename_i mids hmids
    split at h; · cases h
    rename_i r' hr'
    have hv0 : v0 ∈ v0 :: rest := by simp
    have hvl : vl ∈ v0 :: rest := List.mem_of_getLast? hl
    refine ⟨mkUnion_ends h ?_, ?_, ?_⟩
    · intro p hp
      simp only [List.map_append, List.map_cons, List.map_nil, List.mem_append, List.mem_cons, List.not_mem_nil, or_false, SSet.pc.injEq, List.mem_map] at hp
      rcases hp with (rfl | ⟨i, hi, rfl⟩) | rfl
      · simp only [Piece.Ends, (mkIvl_ab hl').1, (mkIvl_ab hl').2]
        exact ⟨hb, hs ((hsort v0).1 hv0)⟩
      · obtain ⟨q, hq, hqi⟩ := forall₂_mem_right (mapM_ok hmids) hi
        simp only [Piece.Ends, (mkIvl_ab hqi).1, (mkIvl_ab hqi).2]
        have := List.of_mem_zip (a := q.1) (b := q.2) hq
        exact ⟨hs ((hsort _).1 this.1), hs ((hsort _).1 (List.mem_of_mem_tail this.2))⟩
      · simp only [Piece.Ends, (mkIvl_ab hr').1, (mkIvl_ab hr').2]
        exact ⟨hs ((hsort vl).1 hvl), ht⟩
    · intro hbs
      have h1 : v0 ≤ ⊥ := by
        have := (hsort ⊥).2 hbs
        rcases List.mem_cons.1 this with h | h
        · exact h ▸ le_rfl
        · exact List.rel_of_pairwise_cons hpw h
      have : v0 = ⊥ := le_bot_iff.1 h1
      subst this
      simp [mkIvl] at hl'
    · intro hts
      have h1 : ⊤ ≤ vl := by
        have h2 := (hsort ⊤).2 hts
        rw [List.getLast?_eq_some_getLast (by simp)] at hl
        cases hl
        have := List.Pairwise.rel_getLast hpw h2
        exact this
      have : vl = ⊤ := top_le_iff.1 h1
      subst this
      simp [mkIvl] at hr'
  · cases h

theorem Ivl.invert_ends {σ : Orders E} {i : Ivl E} (hi : i.a ∈ A ∧ i.b ∈ A) (hb : ⊥ ∈ A) (ht : ⊤ ∈ A) {r : SSet E} (h : i.invert σ = .ok r) : r.Ends A B := by
  unfold Ivl.invert at h
  split at h
  · split at h
    · cases h; trivial
    · simp only [bind, Except.bind] at h
      split at h; · cases h
      rename_i k hk
      cases h
      simp only [SSet.Ends, Piece.Ends, (mkIvl_ab hk).1, (mkIvl_ab hk).2]
      exact ⟨hi.2, ht⟩
  · split at h
    · simp only [bind, Except.bind] at h
      split at h; · cases h
      rename_i k hk
      cases h
      simp only [SSet.Ends, Piece.Ends, (mkIvl_ab hk).1, (mkIvl_ab hk).2]
      exact ⟨hb, hi.1⟩
    · simp only [bind, Except.bind] at h
      split at h; · cases h
      rename_i k hk
      split at h; · cases h
      rename_i k' hk'
      refine mkUnion_ends h ?_
      intro p hp
      simp only [List.mem_cons, List.not_mem_nil, or_false, SSet.pc.injEq] at hp
      rcases hp with rfl | rfl
      · simp only [Piece.Ends, (mkIvl_ab hk).1, (mkIvl_ab hk).2]; exact ⟨hb, hi.1⟩
      · simp only [Piece.Ends, (mkIvl_ab hk').1, (mkIvl_ab hk').2]; exact ⟨hi.2, ht⟩

theorem Nom.invert_ends {n : Nom} (hn : n.vals ⊆ B) {r : SSet E} (h : n.invert = .ok r) : r.Ends A B := by
  unfold Nom.invert at h
  split at h
  · split at h
    · cases h; trivial
    · cases h
  · simp only [bind, Except.bind] at h
    split at h; · cases h
    rename_i m hm
    cases h
    simp only [SSet.Ends, Piece.Ends, mkNom_vals hm]; exact hn

theorem Piece.invert_ends {σ : Orders E} {p : Piece E} (hp : p.Ends A B) (hb : ⊥ ∈ A) (ht : ⊤ ∈ A) {r : SSet E} (h : p.invert σ = .ok r) : r.Ends A B := by
  cases p with
  | nom n => exact Nom.invert_ends hp h
  | fin s => exact (finInvert_ends hp hb ht h).1
  | ivl i => exact Ivl.invert_ends hp hb ht h

end Sppl
