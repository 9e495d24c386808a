import Verif.Sets.UnionLemmas

set_option linter.all false

namespace Sppl
variable {E : Type} [LinearOrder E] [BoundedOrder E]

/-- Finite numbers. -/
def Fin' (x : E) : Prop := x ≠ ⊥ ∧ x ≠ ⊤

/-- The result of absorbing a finite set into an interval: an interval `j` and leftover atoms `t`. -/
structure Absorb (s : Finset E) (i : Ivl E) (t : Finset E) (j : Ivl E) : Prop where
  wf : j.WF
  a_eq : j.a = i.a
  b_eq : j.b = i.b
  sub : t ⊆ s
  notMem : ∀ x ∈ t, ¬ j.Mem x
  back : ∀ x, j.Mem x → i.Mem x ∨ x ∈ s
  mono : ∀ x, i.Mem x → j.Mem x
  cover : ∀ x, Fin' x → x ∈ s → j.Mem x ∨ x ∈ t

theorem finOrIvl_spec (σ : Orders E) (s : Finset E) (i : Ivl E) (hi : i.WF) :
    ∃ t j, Absorb s i t j ∧
      ((t = ∅ ∧ finOrIvl σ s i = .ok (.pc (.ivl j))) ∨
       (t ≠ ∅ ∧ ∃ u, finOrIvl σ s i = .ok (.un u) ∧ mkUnion σ [.pc (.fin t), .pc (.ivl j)] = .ok (.un u) ∧
          u.WF ∧ u.nominals = none ∧ u.atoms = some t ∧ u.intervals = [j])) := by
  obtain ⟨a, b, lo, ro⟩ := i
  obtain ⟨hab, hlo, hro⟩ := hi
  simp only at hab hlo hro
  have finish : ∀ (s' : Finset E) (j : Ivl E),
      Absorb s ⟨a, b, lo, ro⟩ (s'.filter (fun v => !j.has v)) j →
      ∃ t j', Absorb s ⟨a, b, lo, ro⟩ t j' ∧
      ((t = ∅ ∧ (if s'.filter (fun v => !j.has v) = ∅ then .ok (.pc (.ivl j))
          else mkUnion σ [.pc (.fin (s'.filter (fun v => !j.has v))), .pc (.ivl j)]) =
            (.ok (.pc (.ivl j')) : Res (SSet E))) ∨
       (t ≠ ∅ ∧ ∃ u, (if s'.filter (fun v => !j.has v) = ∅ then .ok (.pc (.ivl j))
          else mkUnion σ [.pc (.fin (s'.filter (fun v => !j.has v))), .pc (.ivl j)]) =
            (.ok (.un u) : Res (SSet E)) ∧ mkUnion σ [.pc (.fin t), .pc (.ivl j')] = .ok (.un u) ∧
          u.WF ∧ u.nominals = none ∧ u.atoms = some t ∧ u.intervals = [j'])) := by
    intro s' j hA
    refine ⟨_, j, hA, ?_⟩
    by_cases he : s'.filter (fun v => !j.has v) = ∅
    · left; exact ⟨he, by rw [if_pos he]⟩
    · right
      refine ⟨he, ?_⟩
      rw [if_neg he]
      set t := s'.filter (fun v => !j.has v)
      obtain ⟨u, hu⟩ := mkUnion_total (σ := σ) (vs := [.pc (.fin t), .pc (.ivl j)])
        (by simp) (by simp [List.filterMap]) (by simp [List.filterMap])
        ⟨.fin t, .ivl j, by simp, by simp, by simp⟩
      obtain ⟨u', h1, h2, h3, h4, h5, h6⟩ := mkUnion_ok hu
      cases h1
      have hW : u.WF := h6 (by
        intro p hp
        simp at hp
        rcases hp with rfl | rfl
        · exact Finset.nonempty_iff_ne_empty.2 he
        · exact hA.wf)
      refine ⟨u, hu, hu, hW, ?_, ?_, ?_⟩
      · rcases hn : u.nominals with _ | n
        · rfl
        · have := (h3 n).1 hn; simp at this
      · rw [h4]; simp
      · have : ∀ k, k ∈ u.intervals ↔ k = j := by intro k; rw [h5]; simp
        have hnd := hW.nodup_intervals
        match hl : u.intervals, this, hnd with
        | [], this, _ => simpa using this j
        | [k], this, _ => simpa using this k
        | k :: k' :: _, this, hnd =>
          have e1 := (this k).1 (by simp)
          have e2 := (this k').1 (by simp)
          subst e1 e2; simp at hnd
  unfold finOrIvl
  dsimp only
  have mkk : ∀ l r : Bool, mkIvl a b l r = .ok ⟨a, b, l || decide (a = ⊥), r || decide (b = ⊤)⟩ :=
    fun l r => mkIvl_eq hab
  by_cases c1 : a ∈ s ∧ lo = true
  · rw [if_pos c1]
    simp only [mkk, bind, Except.bind]
    by_cases c2 : b ∈ s.erase a ∧ (ro || decide (b = ⊤)) = true
    · rw [if_pos c2]
      apply finish
      refine ⟨?_, rfl, rfl, ?_, ?_, ?_, ?_, ?_⟩
      · simp only [Ivl.WF, hab, true_and]; simp +contextual
      · intro x; simp +contextual
      · simp +contextual [Ivl.has_iff_false]
      · intro x; simp [Ivl.Mem]; grind
      · intro x; simp [Ivl.Mem]; grind
      · intro x hx; unfold Fin' at hx; simp [Ivl.has_iff_false, Ivl.Mem]; grind
    · rw [if_neg c2]
      apply finish
      refine ⟨?_, rfl, rfl, ?_, ?_, ?_, ?_, ?_⟩
      · simp only [Ivl.WF, hab, true_and]; simp +contextual
      · intro x; simp +contextual
      · simp +contextual [Ivl.has_iff_false]
      · intro x; simp [Ivl.Mem]; grind
      · intro x; simp [Ivl.Mem]; grind
      · intro x hx; unfold Fin' at hx; simp [Ivl.has_iff_false, Ivl.Mem]; grind
  · rw [if_neg c1]
    simp only [mkk, bind, Except.bind]
    by_cases c2 : b ∈ s ∧ ro = true
    · rw [if_pos c2]
      apply finish
      refine ⟨?_, rfl, rfl, ?_, ?_, ?_, ?_, ?_⟩
      · simp only [Ivl.WF, hab, true_and]; simp +contextual
      · intro x; simp +contextual
      · simp +contextual [Ivl.has_iff_false]
      · intro x; simp [Ivl.Mem]; grind
      · intro x; simp [Ivl.Mem]; grind
      · intro x hx; unfold Fin' at hx; simp [Ivl.has_iff_false, Ivl.Mem]; grind
    · rw [if_neg c2]
      apply finish
      refine ⟨⟨hab, hlo, hro⟩, rfl, rfl, ?_, ?_, ?_, ?_, ?_⟩
      · intro x; simp +contextual
      · simp +contextual [Ivl.has_iff_false]
      · intro x h; exact .inl h
      · intro x h; exact h
      · intro x hx h; simp [Ivl.has_iff_false, h]; tauto

/-- Blocks already emitted by `union_intervals` stay to the left of the current block. -/
def Ivl.Before (i j : Ivl E) : Prop := i.b < j.a ∨ (i.b = j.a ∧ i.ro = true)

theorem Ivl.Before.disj {i j : Ivl E} (h : i.Before j) (x : E) : ¬ (i.Mem x ∧ j.Mem x) := by
  unfold Ivl.Before at h; unfold Ivl.Mem; grind

theorem Ivl.Before.trans {i j k : Ivl E} (hj : j.WF) (h : i.Before j) (h' : j.Before k) :
    i.Before k := by
  unfold Ivl.Before at *; have := hj.1; grind

theorem unionIntervalsLoop_spec (σ : Orders E) (rest : List (Ivl E)) :
    ∀ (acc : List (Ivl E)) (last : Ivl E), (∀ i ∈ acc, i.WF) → last.WF → (∀ i ∈ rest, i.WF) →
    (∀ i ∈ rest, last.a ≤ i.a) → rest.Pairwise (fun i j => i.a ≤ j.a) →
    (∀ i ∈ acc, i.Before last) → acc.Pairwise (fun i j => j.Before i) →
    ∃ bs, unionIntervalsLoop σ acc last rest = .ok bs ∧ bs ≠ [] ∧ (∀ i ∈ bs, i.WF) ∧
      bs.Pairwise Ivl.Before ∧
      (∀ x, (∃ i ∈ bs, i.Mem x) ↔ (∃ i ∈ acc, i.Mem x) ∨ last.Mem x ∨ ∃ i ∈ rest, i.Mem x) := by
  induction rest with
  | nil =>
    intro acc last h1 h2 _ _ _ h3 h4
    refine ⟨_, rfl, by simp, ?_, ?_, ?_⟩
    · intro i; simp; rintro (h | rfl)
      · exact h1 i h
      · exact h2
    · rw [List.pairwise_reverse, List.pairwise_cons]; exact ⟨h3, h4⟩
    · intro x
      simp only [List.mem_reverse, List.mem_cons, List.not_mem_nil]
      grind
  | cons i rest ih =>
    intro acc last h1 h2 h3 h4 h5 h6 h7
    rw [List.pairwise_cons] at h5
    have hi : i.WF := h3 i (by simp)
    have hai : last.a ≤ i.a := h4 i (by simp)
    unfold unionIntervalsLoop
    rcases Ivl.or_spec σ last i h2 hi with ⟨k, hk, hkw, hkm, hns, hka, hkb⟩ | ⟨hk, hsep⟩
    · rw [hk]
      have hka' : k.a = last.a := by rw [hka]; exact min_eq_left hai
      obtain ⟨bs, e1, e2, e3, e4, e5⟩ := ih acc k h1 hkw (fun j hj => h3 j (by simp [hj]))
        (fun j hj => by rw [hka']; exact h4 j (by simp [hj])) h5.2
        (fun j hj => by have := h6 j hj; unfold Ivl.Before at *; rw [hka']; exact this) h7
      refine ⟨bs, e1, e2, e3, e4, ?_⟩
      intro x; rw [e5, hkm]; simp only [List.mem_cons]; grind
    · obtain ⟨u, hu⟩ := mkUnion_total (σ := σ) (vs := [.pc (.ivl last), .pc (.ivl i)])
        (by simp) (by simp [List.filterMap]) (by simp [List.filterMap])
        ⟨.ivl last, .ivl i, by
          intro h; cases h; have := h2.1; unfold Ivl.Sep at hsep; grind, by simp, by simp⟩
      rw [hk, hu]
      have hb : last.Before i := by
        have := h2.1; have := hi.1
        unfold Ivl.Sep at hsep; unfold Ivl.Before; grind
      obtain ⟨bs, e1, e2, e3, e4, e5⟩ := ih (last :: acc) i
        (by intro j hj; rcases List.mem_cons.1 hj with rfl | hj; exacts [h2, h1 j hj]) hi
        (fun j hj => h3 j (by simp [hj])) h5.1 h5.2
        (by intro j hj; rcases List.mem_cons.1 hj with rfl | hj; exacts [hb, (h6 j hj).trans h2 hb])
        (List.pairwise_cons.2 ⟨h6, h7⟩)
      refine ⟨bs, e1, e2, e3, e4, ?_⟩
      intro x; rw [e5]; simp only [List.mem_cons]; grind

theorem unionIntervals_spec (σ : Orders E) (l : List (Ivl E)) (hne : l ≠ []) (hl : ∀ i ∈ l, i.WF) :
    ∃ bs, unionIntervals σ l = .ok bs ∧ bs ≠ [] ∧ (∀ i ∈ bs, i.WF) ∧ bs.Pairwise Ivl.Before ∧
      (∀ x, (∃ i ∈ bs, i.Mem x) ↔ ∃ i ∈ l, i.Mem x) := by
  unfold unionIntervals
  have hp := List.perm_insertionSort (fun i j : Ivl E => i.a ≤ j.a) l
  have hs : (l.insertionSort (fun i j : Ivl E => i.a ≤ j.a)).Pairwise (fun i j => i.a ≤ j.a) := by
    have : Std.Total (fun i j : Ivl E => i.a ≤ j.a) := ⟨fun i j => le_total _ _⟩
    have : IsTrans (Ivl E) (fun i j : Ivl E => i.a ≤ j.a) := ⟨fun i j k h h' => le_trans h h'⟩
    exact List.pairwise_insertionSort _ l
  match hm : l.insertionSort (fun i j : Ivl E => i.a ≤ j.a), hp, hs with
  | [], hp, _ => exact absurd hp.nil_eq.symm hne
  | i :: rest, hp, hs =>
    rw [List.pairwise_cons] at hs
    have hw : ∀ j ∈ i :: rest, j.WF := fun j hj => hl j (hp.mem_iff.1 hj)
    obtain ⟨bs, e1, e2, e3, e4, e5⟩ := unionIntervalsLoop_spec σ rest [] i (by simp) (hw i (by simp))
      (fun j hj => hw j (by simp [hj])) hs.1 hs.2 (by simp) (by simp)
    refine ⟨bs, e1, e2, e3, e4, ?_⟩
    intro x; rw [e5]
    have : (∃ i ∈ l, i.Mem x) ↔ ∃ j ∈ i :: rest, j.Mem x := by
      constructor <;> rintro ⟨j, hj, h⟩
      · exact ⟨j, hp.mem_iff.2 hj, h⟩
      · exact ⟨j, hp.mem_iff.1 hj, h⟩
    rw [this]; simp

end Sppl
