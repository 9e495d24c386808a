import Verif.Spe.RealLemmas

set_option linter.all false

/-!
# Contiguous blocks of integers (helper lemmas)
-/

namespace Sppl
open Classical MeasureTheory

/-- Consecutive elements differ by one. -/
def Consec (l : List EReal) : Prop := l.IsChain (fun x y => y = x + 1)

theorem contigLoop_spec : ∀ (ys : List EReal) (last : EReal) (block : List EReal), block.head? = some last → Consec block.reverse →
    (contigLoop last block ys).flatten = block.reverse ++ ys ∧ (∀ b ∈ contigLoop last block ys, b ≠ [] ∧ Consec b) ∧
      (contigLoop last block ys).IsChain (fun a b => ∀ x y, a.getLast? = some x → b.head? = some y → y ≠ x + 1) ∧
      (∃ t rest, contigLoop last block ys = (block.reverse ++ t) :: rest)
  | [], last, block, hl, hc => by
    simp only [contigLoop, List.flatten_cons, List.flatten_nil, List.append_nil, List.mem_singleton, forall_eq, true_and]
    refine ⟨⟨?_, hc⟩, List.isChain_singleton _, [], [], by simp⟩
    rintro h; rw [List.reverse_eq_nil_iff] at h; subst h; simp at hl
  | y :: ys, last, block, hl, hc => by
    unfold contigLoop
    have hlast : block.reverse.getLast? = some last := by rw [List.getLast?_reverse, hl]
    by_cases h : y = last + 1
    · rw [if_pos h]
      obtain ⟨h1, h2, h3, t, rest, h4⟩ := contigLoop_spec ys y (y :: block) rfl (by
        rw [List.reverse_cons]
        refine List.isChain_append.2 ⟨hc, List.isChain_singleton _, ?_⟩
        intro a ha b hb
        rw [hlast] at ha; cases ha
        simp at hb; subst hb; exact h)
      refine ⟨by rw [h1]; simp, h2, h3, y :: t, rest, by rw [h4]; simp⟩
    · rw [if_neg h]
      obtain ⟨h1, h2, h3, t, rest, h4⟩ := contigLoop_spec ys y [y] rfl (List.isChain_singleton _)
      refine ⟨by rw [List.flatten_cons, h1]; simp, ?_, ?_, [], contigLoop y [y] ys, by simp⟩
      · intro b hb
        rcases List.mem_cons.1 hb with rfl | hb
        · refine ⟨?_, hc⟩
          rintro h; rw [List.reverse_eq_nil_iff] at h; subst h; simp at hl
        · exact h2 b hb
      · rw [h4]
        refine List.isChain_cons_cons.2 ⟨?_, by rw [← h4]; exact h3⟩
        intro x z hx hz
        rw [hlast] at hx; cases hx
        simp at hz; subst hz; exact h

/-- `partition_finite_real_contiguous`: the blocks are consecutive runs, in order, with gaps between them, and together
they are the sorted set. -/
theorem partitionContiguous_spec {s : Finset EReal} {bs : List (List EReal)} (h : partitionContiguous s = .ok bs) :
    bs.flatten = s.sort (· ≤ ·) ∧ (∀ b ∈ bs, b ≠ [] ∧ Consec b) ∧
      bs.IsChain (fun a b => ∀ x y, a.getLast? = some x → b.head? = some y → y ≠ x + 1) := by
  unfold partitionContiguous at h
  split at h; · cases h
  rename_i y ys hs
  cases h
  obtain ⟨h1, h2, h3, -⟩ := contigLoop_spec ys y [y] rfl (List.isChain_singleton _)
  exact ⟨by rw [h1, hs]; rfl, h2, h3⟩

/-- The elements of a run that starts at an integer. -/
theorem consec_int : ∀ {l : List EReal} {a : ℤ}, Consec l → l.head? = some ((a : ℝ) : EReal) →
    ∃ k : ℕ, l.getLast? = some (((a + k : ℤ) : ℝ) : EReal) ∧ ∀ x, x ∈ l ↔ ∃ n : ℤ, x = ((n : ℝ) : EReal) ∧ a ≤ n ∧ n ≤ a + k
  | [], _, _, h => by simp at h
  | [x], a, _, h => by
    simp at h; subst h
    refine ⟨0, by simp, fun x => ?_⟩
    simp only [List.mem_singleton, Nat.cast_zero, add_zero]
    constructor
    · rintro rfl; exact ⟨a, rfl, le_refl _, le_refl _⟩
    · rintro ⟨n, rfl, h1, h2⟩; rw [le_antisymm h2 h1]
  | x :: y :: l, a, hc, h => by
    simp only [List.head?_cons, Option.some.injEq] at h; subst h
    obtain ⟨h1, h2⟩ := List.isChain_cons_cons.1 hc
    have hy : y = (((a + 1 : ℤ) : ℝ) : EReal) := by rw [h1, coe_add_one]; push_cast; rfl
    obtain ⟨k, hk, hm⟩ := consec_int (a := a + 1) h2 (by simp [hy])
    refine ⟨k + 1, by rw [List.getLast?_cons_cons, hk]; congr 2; push_cast; ring, fun z => ?_⟩
    rw [List.mem_cons, hm]
    constructor
    · rintro (rfl | ⟨n, rfl, h3, h4⟩)
      · exact ⟨a, rfl, le_refl _, by push_cast; omega⟩
      · exact ⟨n, rfl, by omega, by push_cast; omega⟩
    · rintro ⟨n, rfl, h3, h4⟩
      rcases eq_or_lt_of_le h3 with rfl | h3
      · exact .inl rfl
      · exact .inr ⟨n, rfl, by omega, by push_cast at h4; omega⟩

/-- `Range(min(b), max(b))` holds exactly the integers of the run. -/
theorem blockRange_spec {b : List EReal} {i : Ivl EReal} (hc : Consec b) (hf : ∀ x ∈ b, x ≠ ⊥ ∧ x ≠ ⊤) (h : blockRange b = .ok i) :
    i.WF ∧ (∃ a : ℤ, i.a = ((a : ℝ) : EReal) ∧ i.a ∈ b) ∧ (∃ n : ℤ, i.b = ((n : ℝ) : EReal)) ∧
      (∀ n : ℤ, i.Mem ((n : ℝ) : EReal) ↔ ((n : ℝ) : EReal) ∈ b) ∧ ∀ x ∈ b, ∃ n : ℤ, x = ((n : ℝ) : EReal) := by
  unfold blockRange at h
  split at h; swap; · cases h
  rename_i x y hx hy
  unfold mkRange at h
  simp only [bind, Except.bind] at h
  split at h; · cases h
  rename_i a ha
  split at h; · cases h
  rename_i u hu
  split at h; · cases h
  rename_i b' hb'
  split at h; · cases h
  have hxb : x ∈ b := List.mem_of_head? hx
  have hxf := hf x hxb
  have hxi : ∃ n : ℤ, x = ((n : ℝ) : EReal) := by
    unfold intOrNegInf at ha
    rw [if_neg hxf.1, if_neg hxf.2] at ha
    cases ha
    unfold assertB at hu
    split at hu
    · rename_i h1; exact isInt_iff.1 h1
    · cases hu
  obtain ⟨m, rfl⟩ := hxi
  obtain ⟨k, hk, hmem⟩ := consec_int hc hx
  rw [hy] at hk; cases hk
  obtain ⟨h1, rfl⟩ := mkIvl_ok h
  have hint : ∃ n : ℤ, ((((m + k : ℤ) : ℝ) : EReal) + (if ((m : ℝ) : EReal) = (((m + k : ℤ) : ℝ) : EReal) then (1 : EReal) else 0)) = ((n : ℝ) : EReal) := by
    split
    · exact ⟨m + k + 1, by rw [coe_add_one]; push_cast; rfl⟩
    · exact ⟨m + k, by rw [add_zero]⟩
  refine ⟨⟨h1, ?_, ?_⟩, ⟨m, rfl, hxb⟩, hint, ?_, fun x hx => ?_⟩
  · intro h; exact absurd h (EReal.coe_ne_bot _)
  · intro h
    obtain ⟨n, hn⟩ := hint
    exact absurd (hn.symm.trans h) (EReal.coe_ne_top _)
  · intro n
    rw [hmem]
    have hb : decide (((m : ℝ) : EReal) = ⊥) = false := by simp [EReal.coe_ne_bot]
    simp only [Ivl.Mem, hb, Bool.or_false, Bool.false_eq_true, if_false]
    by_cases hk : (k : ℤ) = 0
    · have e : (((m : ℝ) : EReal) = (((m + k : ℤ) : ℝ) : EReal)) := by rw [hk, add_zero]
      rw [if_pos e, decide_eq_true e, Bool.true_or, if_pos rfl, coe_add_one, EReal.coe_le_coe_iff, EReal.coe_lt_coe_iff, hk]
      have : ((m + 0 : ℤ) : ℝ) + 1 = ((m + 0 + 1 : ℤ) : ℝ) := by push_cast; ring
      rw [this, Int.cast_le, Int.cast_lt]
      constructor
      · rintro ⟨h2, h3⟩; exact ⟨n, rfl, h2, by omega⟩
      · rintro ⟨n', h2, h3, h4⟩
        have : n = n' := by simpa using h2
        subst this
        exact ⟨h3, by omega⟩
    · have e : ¬ (((m : ℝ) : EReal) = (((m + k : ℤ) : ℝ) : EReal)) := by
        rw [EReal.coe_eq_coe_iff, Int.cast_inj]; omega
      have et : decide ((((m + k : ℤ) : ℝ) : EReal) + 0 = ⊤) = false := decide_eq_false (by rw [add_zero]; exact EReal.coe_ne_top _)
      rw [if_neg e, decide_eq_false e, et, Bool.or_false, add_zero]
      simp only [Bool.false_eq_true, if_false, EReal.coe_le_coe_iff, Int.cast_le]
      constructor
      · rintro ⟨h2, h3⟩; exact ⟨n, rfl, h2, h3⟩
      · rintro ⟨n', h2, h3, h4⟩
        have : n = n' := by simpa using h2
        subst this
        exact ⟨h3, h4⟩
  · obtain ⟨n, hn, -⟩ := (hmem x).1 hx
    exact ⟨n, hn⟩

end Sppl
