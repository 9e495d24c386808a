import Verif.Sets.IvlAnd

set_option linter.all false

namespace Sppl
variable {E : Type} [LinearOrder E] [BoundedOrder E]

theorem Ivl.merge_spec (i j : Ivl E) (hi : i.WF) (hj : j.WF) (hs : ¬ i.Sep j) :
    ∃ k, Ivl.merge i j = .ok (.pc (.ivl k)) ∧ k.WF ∧ (∀ x, k.Mem x ↔ i.Mem x ∨ j.Mem x) ∧
      k.a = min i.a j.a ∧ k.b = max i.b j.b := by
  obtain ⟨a, b, lo, ro⟩ := i
  obtain ⟨c, d, lo', ro'⟩ := j
  obtain ⟨hi1, hi2, hi3⟩ := hi
  obtain ⟨hj1, hj2, hj3⟩ := hj
  have key : ∀ (x y : E) (l r : Bool), x < y → (x = ⊥ → l = true) → (y = ⊤ → r = true) →
      mkIvl x y l r = .ok ⟨x, y, l, r⟩ := by
    intro x y l r h h1 h2
    rw [mkIvl_eq h]
    by_cases e1 : x = ⊥ <;> by_cases e2 : y = ⊤ <;> simp_all
  unfold Ivl.merge
  simp only [Ivl.Sep] at *
  have h1 : endLe (d, ro') (c, lo') = false := by simp [endLe]; grind
  have h2 : endLe (c, lo') (d, ro') = true := by simp [endLe]; grind
  have h3 : endLe (b, ro) (a, lo) = false := by simp [endLe]; grind
  have h4 : endLe (a, lo) (b, ro) = true := by simp [endLe]; grind
  cases e1 : endLe (b, ro) (c, lo') <;> cases e2 : endLe (b, ro) (d, ro') <;>
    cases e3 : endLe (a, lo) (c, lo') <;> cases e4 : endLe (a, lo) (d, ro') <;>
    simp only [List.insertionSort, List.foldr_cons, List.foldr_nil, List.orderedInsert, h1, h2, h3,
      h4, e1, e2, e3, e4, if_true, Bool.false_eq_true, if_false] <;>
    clear h1 h2 h3 h4 <;>
    simp only [endLe, Bool.or_eq_true, Bool.and_eq_true, decide_eq_true_eq, Bool.or_eq_false_iff,
      Bool.and_eq_false_imp, decide_eq_false_iff_not, Bool.not_eq_true'] at e1 e2 e3 e4
  all_goals try (exfalso; clear key; grind)
  all_goals
    rw [key]
    · refine ⟨_, rfl, ⟨?_, ?_, ?_⟩, ?_, ?_, ?_⟩ <;> clear key <;> simp only [Ivl.Mem] <;>
      grind
    all_goals clear key; grind

theorem Ivl.or_spec (σ : Orders E) (i j : Ivl E) (hi : i.WF) (hj : j.WF) :
    (∃ k, Ivl.or σ i j = .ok (.pc (.ivl k)) ∧ k.WF ∧ (∀ x, k.Mem x ↔ i.Mem x ∨ j.Mem x) ∧
      ¬ Ivl.Sep i j ∧ k.a = min i.a j.a ∧ k.b = max i.b j.b) ∨
    (Ivl.or σ i j = mkUnion σ [.pc (.ivl i), .pc (.ivl j)] ∧ Ivl.Sep i j) := by
  obtain ⟨r, hr, -, -, hap, -⟩ := Ivl.and_spec j i hj hi
  unfold Ivl.or
  rw [hr]
  by_cases hij : i = j
  · subst hij
    refine .inl ⟨i, by simp, hi, by simp, ?_, by simp, by simp⟩
    have := hi.1
    unfold Ivl.Sep; grind
  have hcond : ((r.isEmpty && !j.has i.a && !j.has i.b
      && !i.has j.a && !i.has j.b) = true) ↔ Ivl.Sep i j := by
    have : r.isEmpty = true ↔ j.Apart i := by
      rw [← hap]; cases r <;> simp [SSet.isEmpty]
    simp only [Bool.and_eq_true, this, Bool.not_eq_true', Ivl.has_iff_false]
    obtain ⟨a, b, lo, ro⟩ := i
    obtain ⟨c, d, lo', ro'⟩ := j
    obtain ⟨hi1, hi2, hi3⟩ := hi
    obtain ⟨hj1, hj2, hj3⟩ := hj
    simp only [Ivl.Mem, Ivl.Apart, Ivl.Sep] at *
    clear this hap hr hij
    cases lo <;> cases ro <;> cases lo' <;> cases ro' <;> grind
  by_cases hs : Ivl.Sep i j
  · right
    exact ⟨by simp [hij, bind, Except.bind, hcond.2 hs], hs⟩
  · left
    obtain ⟨k, h1, h2, h3, h4, h5⟩ := Ivl.merge_spec i j hi hj hs
    refine ⟨k, ?_, h2, h3, hs, h4, h5⟩
    have := mt hcond.1 hs
    simp only [if_neg hij, bind, Except.bind, if_neg this, h1]

end Sppl
