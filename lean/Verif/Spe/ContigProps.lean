import Verif.Spe.ContigLemmas

set_option linter.all false

/-!
# C43: contiguous blocks of integers
-/

namespace Sppl
open Classical

/-- C43: `partition_finite_real_contiguous` returns non-empty runs of numbers that increase by one; joined in order they are the set in increasing order,
without repetitions; and two successive runs are not a longer run. -/
theorem C43_partition {s : Finset EReal} (hs : s.Nonempty) : ∃ bs, partitionContiguous s = .ok bs ∧
    bs.flatten.Pairwise (· < ·) ∧ (∀ x, x ∈ s ↔ ∃ b ∈ bs, x ∈ b) ∧ (∀ b ∈ bs, b ≠ [] ∧ b.IsChain (fun x y => y = x + 1)) ∧
    bs.IsChain (fun a b => ∀ x y, a.getLast? = some x → b.head? = some y → y ≠ x + 1) := by
  obtain ⟨bs, h⟩ : ∃ bs, partitionContiguous s = .ok bs := by
    unfold partitionContiguous
    split
    · rename_i h
      have := congrArg List.length h
      simp at this; exact absurd this hs.ne_empty
    · exact ⟨_, rfl⟩
  obtain ⟨h1, h2, h3⟩ := partitionContiguous_spec h
  refine ⟨bs, h, ?_, fun x => ?_, h2, h3⟩
  · rw [h1]; exact s.sortedLT_sort.pairwise
  · rw [← List.mem_flatten, h1, Finset.mem_sort]

theorem blockRange_total {b : List EReal} (hb : b ≠ []) (hc : Consec b) (hi : ∀ x ∈ b, ∃ n : ℤ, x = ((n : ℝ) : EReal)) : ∃ i, blockRange b = .ok i := by
  cases hx : b.head? with
  | none => simp at hx; exact absurd hx hb
  | some x =>
    obtain ⟨m, rfl⟩ := hi x (List.mem_of_head? hx)
    obtain ⟨k, hk, hmem⟩ := consec_int hc hx
    unfold blockRange
    simp only [hx, hk]
    have e1 : intOrNegInf ((m : ℝ) : EReal) = .ok true := by
      unfold intOrNegInf
      rw [if_neg (EReal.coe_ne_bot _), if_neg (EReal.coe_ne_top _), isInt_iff.2 ⟨m, rfl⟩]
    have e2 : intOrPosInf (((m + k : ℤ) : ℝ) : EReal) = .ok true := by
      unfold intOrPosInf
      rw [if_neg (EReal.coe_ne_top _), if_neg (EReal.coe_ne_bot _), isInt_iff.2 ⟨m + k, rfl⟩]
    simp only [mkRange, e1, e2, bind, Except.bind, assertB, if_true]
    refine ⟨_, mkIvl_eq ?_⟩
    by_cases h0 : k = 0
    · subst h0
      simp only [Nat.cast_zero, add_zero, if_true]
      rw [coe_add_one, EReal.coe_lt_coe_iff]; linarith
    · have : ¬ (((m : ℝ) : EReal) = (((m + k : ℤ) : ℝ) : EReal)) := by
        rw [EReal.coe_eq_coe_iff]; intro h; apply h0; have := Int.cast_injective h; omega
      rw [if_neg this, add_zero, EReal.coe_lt_coe_iff, Int.cast_lt]; omega

/-- C43: for a non-empty set of integers, `flatten_values_contiguous` of a discrete leaf (with `Range`) returns well-formed intervals such that every
integer of the set is in exactly one of them and no other integer is in any. -/
theorem C43_ranges {s : Finset EReal} (hs : s.Nonempty) (hi : ∀ x ∈ s, ∃ n : ℤ, x = ((n : ℝ) : EReal)) : ∃ is, flattenPiece .disc (.fin s) = .ok is ∧
    (∀ i ∈ is, i.WF) ∧ (∀ n : ℤ, ((n : ℝ) : EReal) ∈ s ↔ ∃ i ∈ is, i.Mem ((n : ℝ) : EReal)) ∧
    is.Pairwise (fun i j => ∀ n : ℤ, ¬ (i.Mem ((n : ℝ) : EReal) ∧ j.Mem ((n : ℝ) : EReal))) := by
  obtain ⟨bs, h, hp, hm, hb, -⟩ := C43_partition hs
  have hall : ∀ b ∈ bs, ∃ i, blockRange b = .ok i := fun b hb' =>
    blockRange_total (hb b hb').1 (hb b hb').2 (fun x hx => hi x ((hm x).2 ⟨b, hb', hx⟩))
  have hfin : ∀ b ∈ bs, ∀ x ∈ b, x ≠ ⊥ ∧ x ≠ ⊤ := by
    intro b hb' x hx
    obtain ⟨n, rfl⟩ := hi x ((hm x).2 ⟨b, hb', hx⟩)
    exact ⟨EReal.coe_ne_bot _, EReal.coe_ne_top _⟩
  have key : ∀ l : List (List EReal), (∀ b ∈ l, b ∈ bs) → l.flatten.Pairwise (· < ·) → ∃ is, l.mapM blockRange = .ok is ∧ (∀ i ∈ is, i.WF) ∧
      (∀ n : ℤ, (∃ b ∈ l, ((n : ℝ) : EReal) ∈ b) ↔ ∃ i ∈ is, i.Mem ((n : ℝ) : EReal)) ∧
      is.Pairwise (fun i j => ∀ n : ℤ, ¬ (i.Mem ((n : ℝ) : EReal) ∧ j.Mem ((n : ℝ) : EReal))) := by
    intro l
    induction l with
    | nil => intro _ _; exact ⟨[], rfl, by simp, by simp, by simp⟩
    | cons b l ih =>
      intro hsub hp
      have hbb := hsub b (by simp)
      rw [List.flatten_cons, List.pairwise_append] at hp
      obtain ⟨is, h1, h2, h3, h4⟩ := ih (fun b' hb' => hsub b' (by simp [hb'])) hp.2.1
      obtain ⟨i, hi'⟩ := hall b hbb
      obtain ⟨k1, -, -, k2, -⟩ := blockRange_spec (hb b hbb).2 (hfin b hbb) hi'
      refine ⟨i :: is, by simp [List.mapM_cons, hi', h1, bind, Except.bind, pure, Except.pure], ?_, ?_, ?_⟩
      · intro j hj; rcases List.mem_cons.1 hj with rfl | hj
        · exact k1
        · exact h2 j hj
      · intro n
        simp only [List.mem_cons, exists_eq_or_imp, k2 n, h3 n]
      · refine List.pairwise_cons.2 ⟨fun j hj n hn => ?_, h4⟩
        have a1 := (k2 n).1 hn.1
        obtain ⟨b', hb', a2⟩ := (h3 n).2 ⟨j, hj, hn.2⟩
        exact lt_irrefl _ (hp.2.2 _ a1 _ (List.mem_flatten.2 ⟨b', hb', a2⟩))
  obtain ⟨is, h1, h2, h3, h4⟩ := key bs (fun _ h => h) hp
  refine ⟨is, ?_, h2, fun n => ?_, h4⟩
  · simp only [flattenPiece, h, bind, Except.bind]; exact h1
  · rw [hm, h3]

/-- C43 non-vacuity: `{1, 2, 5}`. -/
example : (∀ x ∈ ({1, 2, 5} : Finset EReal), ∃ n : ℤ, x = ((n : ℝ) : EReal)) ∧ ({1, 2, 5} : Finset EReal).Nonempty := by
  refine ⟨?_, by simp⟩
  intro x hx
  simp at hx
  rcases hx with rfl | rfl | rfl
  · exact ⟨1, by simp⟩
  · exact ⟨2, by simp; rfl⟩
  · exact ⟨5, by simp; rfl⟩

/-- A value that is not an integer makes `Range` raise an assertion error, so a discrete leaf cannot be conditioned on it (although it only contributes
probability zero). -/
theorem C43_fraction_raises : flattenPiece .disc (.fin {((1/2 : ℝ) : EReal)}) = .error .assertion := by
  have : isInt ((1/2 : ℝ) : EReal) = false := by
    rw [Bool.eq_false_iff]
    intro h
    obtain ⟨n, hn⟩ := isInt_iff.1 h
    rw [EReal.coe_eq_coe_iff] at hn
    have h2 : (1 : ℝ) = ((2 * n : ℤ) : ℝ) := by push_cast; linarith
    have : (1 : ℤ) = 2 * n := by exact_mod_cast h2
    omega
  rw [one_div] at this
  simp only [flattenPiece, partitionContiguous, Finset.sort_singleton, contigLoop, List.reverse_singleton, List.mapM_cons, blockRange, mkRange, intOrNegInf,
    this, assertB, bind, Except.bind]
  simp [EReal.coe_ne_bot, EReal.coe_ne_top, this]

end Sppl
