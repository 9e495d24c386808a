import Verif.Spe.InfoProps
import Verif.Spe.TotalProps
import Verif.Dnf.TotalProps

set_option linter.all false

/-!
# C39: `mutual_information` returns

For products and mixtures of products, and Boolean combinations of events `X in S` about base variables (as C18_total).
-/

namespace Sppl
open Classical MeasureTheory
open scoped ENNReal ProbabilityTheory

variable {c : Ctx} {L : Lib} {μ : Dist → Measure ℝ} {s : Spe} {A B : Ev}

theorem Spe.BaseOn.mono {V W : Finset String} (hVW : V ⊆ W) {s : Spe} (h : s.BaseOn W) : s.BaseOn V := by
  induction h with
  | real h => exact .real (fun s hs => h s (hVW hs))
  | atomic h => exact .atomic (fun s hs => h s (hVW hs))
  | nominal => exact .nominal
  | sum _ ih => exact .sum ih
  | prod _ ih => exact .prod ih

theorem pdiff_one {x : ℝ} (h : x ≤ 1) : pdiff 1 x = .ok (1 - x) := by
  unfold pdiff
  by_cases h1 : x < 1
  · rw [if_pos h1]
  · have : x = 1 := le_antisymm h (not_lt.1 h1)
    subst this; simp

/-- `mutual_information` returns where the operators on events do and `prob` answers the events they make. -/
theorem info_of_probs (hc : c.Correct) (hs : s.WF c L μ) (hw : s.Wide) (hA : AsksTyped c μ s A) (hB : AsksTyped c μ s B) {n : ℕ} {AB nA nB AnB nAB : Ev}
    (h5 : A.land c B = .ok AB) (h7 : B.not c = .ok nB) (h8 : A.land c nB = .ok AnB) (h10 : A.not c = .ok nA) (h11 : nA.land c B = .ok nAB)
    (ask : ∀ e ∈ [A, B, AB, AnB, nAB], s.prob c L n e = .ok ((s.den μ).real {ω | e.holds ω})) :
    s.mutualInfo c L n A B = .ok (mutualInformation (s.den μ) {ω | A.holds ω} {ω | B.holds ω} : ℝ) := by
  have hpr := hs.prob
  have vA := Ev.Made.valid _ hA.proper.made
  have vB := Ev.Made.valid _ hB.proper.made
  have key : ∀ (e : Ev) (r : Res ℝ), keyed c n s e r = r := by
    intro e r
    have : s.leafEnv = none := by cases hw <;> rfl
    simp [keyed, leafKey, this, bind, Except.bind]
  have a1 := ask A (by simp)
  have b1 := ask B (by simp)
  have q11 := ask AB (by simp)
  have q10 := ask AnB (by simp)
  have q01 := ask nAB (by simp)
  have vnB := Ev.not_spec B vB h7
  have vnA := Ev.not_spec A vA h10
  have r11 : (s.den μ).real {ω | AB.holds ω} = (s.den μ).real ({ω | A.holds ω} ∩ {ω | B.holds ω}) :=
    congrArg _ (Set.ext (Ev.land_spec vA vB h5).2)
  have r10 : (s.den μ).real {ω | AnB.holds ω} = (s.den μ).real ({ω | A.holds ω} ∩ {ω | B.holds ω}ᶜ) := by
    refine measureReal_congr ?_
    filter_upwards [hB.typed] with ω hω
    refine propext (((Ev.land_spec vA vnB.1 h8).2 ω).trans ?_)
    rw [vnB.2 ω hω]; rfl
  have r01 : (s.den μ).real {ω | nAB.holds ω} = (s.den μ).real ({ω | A.holds ω}ᶜ ∩ {ω | B.holds ω}) := by
    refine measureReal_congr ?_
    filter_upwards [hA.typed] with ω hω
    refine propext (((Ev.land_spec vnA.1 vB h11).2 ω).trans ?_)
    rw [vnA.2 ω hω]; rfl
  have hsum : (s.den μ).real {ω | AB.holds ω} + (s.den μ).real {ω | AnB.holds ω} + (s.den μ).real {ω | nAB.holds ω} ≤ 1 := by
    have mS : MeasurableSet {ω | A.holds ω} := Ev.measurable A
    have mT : MeasurableSet {ω | B.holds ω} := Ev.measurable B
    have e1 := measureReal_inter_add_sdiff (μ := s.den μ) (s := {ω | A.holds ω}) mT
    have e3 := probReal_compl_eq_one_sub (μ := s.den μ) mS
    have e4 : (s.den μ).real ({ω | A.holds ω}ᶜ ∩ {ω | B.holds ω}) ≤ (s.den μ).real {ω | A.holds ω}ᶜ := measureReal_mono Set.inter_subset_left
    rw [Set.diff_eq] at e1
    rw [r11, r10, r01]; linarith
  have hret : ∃ r, s.mutualInfo c L n A B = .ok r := by
    unfold Spe.mutualInfo
    simp only [key, a1, b1, h5, q11, h7, h8, q10, h10, h11, q01, bind, Except.bind, pdiff_one measureReal_le_one, pdiff_one hsum]
    exact ⟨_, rfl⟩
  obtain ⟨r, hr⟩ := hret
  rw [hr, C39_mutual_information_partial hc hs hA hB hr]

/-- **C39 (`mutual_information` returns).** At any depth of the stack, it returns the mutual information of the two
indicator variables. -/
theorem C39_total (hc : c.Correct) (hs : s.WF c L μ) (hw : s.Wide) (hA : AsksTyped c μ s A) (hB : AsksTyped c μ s B) (sA : A.Simple (fun _ _ => True)) (sB : B.Simple (fun _ _ => True))
    (hb : s.BaseOn (A.symbols ∪ B.symbols)) (nA : A.All (fun l => ∀ t, l ≠ .nom t none)) (nB : B.All (fun l => ∀ t, l ≠ .nom t none)) (n : ℕ) :
    s.mutualInfo c L n A B = .ok (mutualInformation (s.den μ) {ω | A.holds ω} {ω | B.holds ω} : ℝ) := by
  have vA := Ev.Made.valid _ hA.proper.made
  have vB := Ev.Made.valid _ hB.proper.made
  have ask : ∀ {e : Ev}, e.Simple (fun _ _ => True) → e.Proper c s.atomSyms → e.symbols ⊆ A.symbols ∪ B.symbols → s.prob c L n e = .ok ((s.den μ).real {ω | e.holds ω}) := fun h1 h2 h3 =>
    C18_total hc hs hw h1 (hb.mono h3) (h3.trans (Finset.union_subset hA.vars hB.vars)) (h2.nomFree (le_refl _)) n
  obtain ⟨AB, h5, s5⟩ := (C07_total c sA sB).1
  obtain ⟨nB', h7, s7⟩ := C07_not_total c sB nB
  obtain ⟨AnB, h8, s8⟩ := (C07_total c sA s7).1
  obtain ⟨nA', h10, s10⟩ := C07_not_total c sA nA
  obtain ⟨nAB, h11, s11⟩ := (C07_total c s10 sB).1
  have syA : nA'.symbols ⊆ A.symbols ∪ B.symbols := (Ev.not_symbols vA h10).trans Finset.subset_union_left
  have syB : nB'.symbols ⊆ A.symbols ∪ B.symbols := (Ev.not_symbols vB h7).trans Finset.subset_union_right
  refine info_of_probs hc hs hw hA hB h5 h7 h8 h10 h11 ?_
  intro e he
  simp only [List.mem_cons, List.not_mem_nil, or_false] at he
  rcases he with rfl | rfl | rfl | rfl | rfl
  · exact ask sA hA.proper Finset.subset_union_left
  · exact ask sB hB.proper Finset.subset_union_right
  · exact ask s5 (hA.proper.land hB.proper h5) (Ev.land_symbols h5 Finset.subset_union_left Finset.subset_union_right)
  · exact ask s8 (hA.proper.land (hB.proper.not h7) h8) (Ev.land_symbols h8 Finset.subset_union_left syB)
  · exact ask s11 ((hA.proper.not h10).land hB.proper h11) (Ev.land_symbols h11 syA Finset.subset_union_right)

/-- Non-vacuity: the mutual information of `Y == 'a'` and `(X < 1/2) | (Y == 'a')` on the uniform variable and the coin. -/
example : ctx0.Correct ∧ unifCoin.WF ctx0 (libOf muU) muU ∧ unifCoin.Wide ∧ AsksTyped ctx0 muU unifCoin (strEv "Y" "a") ∧ AsksTyped ctx0 muU unifCoin unifCoinEv ∧
    (strEv "Y" "a").Simple (fun _ _ => True) ∧ unifCoinEv.Simple (fun _ _ => True) ∧ unifCoin.BaseOn ((strEv "Y" "a").symbols ∪ unifCoinEv.symbols) ∧
    (strEv "Y" "a").All (fun l => ∀ t, l ≠ .nom t none) ∧ unifCoinEv.All (fun l => ∀ t, l ≠ .nom t none) := by
  have hk : ∀ᵐ ω ∂(unifCoin.den muU), (∃ x : ℝ, ω "X" = some (.num x)) ∧ ∃ y, ω "Y" = some (.str y) := by
    have := unifCoin_wf.kind (K := fun k => decide (k = "X")) (by
      refine .prod ?_
      intro s hs
      simp only [List.mem_cons, List.not_mem_nil, or_false] at hs
      rcases hs with rfl | rfl
      · refine .real (Filter.Eventually.of_forall ?_)
        intro x p hp
        simp only [List.mem_cons, List.not_mem_nil, or_false] at hp
        subst hp
        simp only [decide_true]
        exact ⟨x, by simp [Env.extend, Tr.eval, baseAsg]⟩
      · exact .nominal (by decide))
    filter_upwards [this] with ω h
    exact ⟨h "X" (by simp [unifCoin, Spe.symbols, Spe.symbolsL, leafX, coin]), h "Y" (by simp [unifCoin, Spe.symbols, Spe.symbolsL, leafX, coin])⟩
  have hS : unifCoinEv.Simple (fun _ _ => True) := by
    refine .or (by simp) ?_
    intro e he
    simp only [List.mem_cons, List.not_mem_nil, or_false] at he
    rcases he with rfl | rfl
    · exact .ivl ⟨EReal.bot_lt_coe _, by simp, by simp⟩ (by simp [Piece.Within])
    · exact .nom (by simp [Nom.WF])
  have cl : (strEv "Y" "a").All (Clean unifCoin.atomSyms) := .lit rfl (by rintro ⟨k, -, hk⟩; simp [unifCoin, Spe.atomSyms, Spe.atomSymsL, leafX, coin] at hk)
  refine ⟨ctx0_correct, unifCoin_wf, .prod, ⟨⟨strEv_made _ _ _, .lit rfl rfl, cl⟩, ?_, Filter.Eventually.of_forall ?_, ?_⟩, ⟨⟨hS.made.1, ?_, ?_⟩, ?_, Filter.Eventually.of_forall (hS.made (c := ctx0)).2, ?_⟩, .nom (by simp [Nom.WF]), hS, .prod ?_, .lit rfl (by simp [strEv]), ?_⟩
  · simp [strEv, Ev.symbols, Tr.symbols, unifCoin, Spe.symbols, Spe.symbolsL, leafX, coin]
  · intro ω; simp [strEv, Ev.Regular, Tr.Regular]
  · filter_upwards [hk] with ω hω
    obtain ⟨y, hy⟩ := hω.2
    exact ⟨y, by simpa [Tr.eval] using hy⟩
  · exact Ev.all_or.2 (by
      intro e he
      simp only [List.mem_cons, List.not_mem_nil, or_false] at he
      rcases he with rfl | rfl
      · exact .lit rfl (nomId_of_basic rfl rfl)
      · exact .lit rfl rfl)
  · exact Ev.all_or.2 (by
      intro e he
      simp only [List.mem_cons, List.not_mem_nil, or_false] at he
      rcases he with rfl | rfl
      · exact .lit rfl (by rintro ⟨k, -, hk⟩; simp [unifCoin, Spe.atomSyms, Spe.atomSymsL, leafX, coin] at hk)
      · exact cl)
  · simp [unifCoinEv, strEv, Ev.symbols, Ev.symbolsL, Tr.symbols, unifCoin, Spe.symbols, Spe.symbolsL, leafX, coin]
  · filter_upwards [hk] with ω hω
    obtain ⟨⟨x, hx⟩, y, hy⟩ := hω
    exact ⟨⟨x, by simpa [Tr.eval] using hx⟩, ⟨y, by simpa [Tr.eval] using hy⟩, trivial⟩
  · intro s hs
    simp only [List.mem_cons, List.not_mem_nil, or_false] at hs
    rcases hs with rfl | rfl
    · refine .real ?_; intro s _ hs; simpa using hs
    · exact .nominal
  · exact Ev.all_or.2 (by
      intro e he
      simp only [List.mem_cons, List.not_mem_nil, or_false] at he
      rcases he with rfl | rfl <;> exact .lit rfl (by simp [strEv]))

end Sppl
