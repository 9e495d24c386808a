import Verif.Spe.InfoTotProps
import Verif.Spe.CurveProps

set_option linter.all false

/-!
# C39: `mutual_information` returns on comparisons of expressions

The events are those of `CurveProps`, and so must be their negations: `~(exp(X) > 0)` is `exp(X) <= 0`, which no number
satisfies.
-/

namespace Sppl
open Classical MeasureTheory
open scoped ENNReal ProbabilityTheory

variable {c : Ctx} {L : Lib} {μ : Dist → Measure ℝ} {s : Spe} {A B A' B' : Ev} {T : String → Prop}

theorem Ev.curved_iff {Q : String → EReal → Prop} : ∀ e : Ev, e.Curved Q T ↔ e.Valid ∧ e.All (MixLit Q T) := by
  intro e
  refine ⟨fun h => h.all, ?_⟩
  revert e
  refine Ev.ind ?_ ?_ ?_
  · rintro e t ht ⟨hv, ha⟩
    rcases (Ev.all_lit ht).1 ha with ⟨k, h1, h2, h3⟩ | ⟨k, h1, h2, h3, h4⟩
    · exact .plain h2 h1 ((Ev.simple_iff e).2 ⟨hv, (Ev.all_lit ht).2 h3⟩)
    · exact .curve h1 h2 h3 h4
  · rintro es ih ⟨hv, ha⟩
    cases hv with
    | or hne hv => exact .or hne (fun e he => ih e he ⟨hv e he, Ev.all_or.1 ha e he⟩)
  · rintro es ih ⟨hv, ha⟩
    cases hv with
    | and hne hv => exact .and hne (fun e he => ih e he ⟨hv e he, Ev.all_and.1 ha e he⟩)

/-- **C07 (`e & f` returns on comparisons of expressions).** The result is of the same class. -/
theorem C07_curve_and (c : Ctx) {Q : String → EReal → Prop} (hA : A.Curved Q T) (hB : B.Curved Q T) : ∃ g, A.land c B = .ok g ∧ g.Curved Q T := by
  obtain ⟨av, aa⟩ := hA.all
  obtain ⟨bv, ba⟩ := hB.all
  obtain ⟨g, hg⟩ := Ev.land_total c av bv
  exact ⟨g, hg, (Ev.curved_iff g).2 ⟨(Ev.land_spec av bv hg).1, Ev.land_all mixLit_and aa ba hg⟩⟩

/-- **C39 (`mutual_information` returns on comparisons of expressions).** From some depth of the stack on, it returns the
mutual information of the two indicator variables. -/
theorem C39_curve_total (hc : c.Correct) (hl : c.Linear) (hs : s.WF c L μ) (hw : s.Wide) (hA : AsksTyped c μ s A) (hB : AsksTyped c μ s B) (cA : A.Curved (fun _ _ => True) T)
    (cB : B.Curved (fun _ _ => True) T) (nA : A.not c = .ok A') (nB : B.not c = .ok B') (cA' : A'.Curved (fun _ _ => True) T) (cB' : B'.Curved (fun _ _ => True) T)
    (hb : s.BaseOn (A.symbols ∪ B.symbols)) :
    ∃ N, ∀ n, N ≤ n → s.mutualInfo c L n A B = .ok (mutualInformation (s.den μ) {ω | A.holds ω} {ω | B.holds ω} : ℝ) := by
  have vA := Ev.Made.valid _ hA.proper.made
  have vB := Ev.Made.valid _ hB.proper.made
  have vA' := (Ev.not_spec A vA nA).1
  have vB' := (Ev.not_spec B vB nB).1
  have ask : ∀ {e : Ev}, e.Curved (fun _ _ => True) T → e.Proper c s.atomSyms → e.symbols ⊆ A.symbols ∪ B.symbols → (∀ᵐ ω ∂(s.den μ), e.Regular ω) →
      ∃ N, ∀ n, N ≤ n → s.prob c L n e = .ok ((s.den μ).real {ω | e.holds ω}) := fun h1 h2 h3 h4 =>
    C18_curve_total hc hl hs hw h1 (hb.mono h3) (h3.trans (Finset.union_subset hA.vars hB.vars)) (h2.nomFree (le_refl _)) h4
  have rnB : ∀ᵐ ω ∂(s.den μ), B'.Regular ω := by filter_upwards [hB.regular] with ω hω using Ev.not_regular vB nB hω
  have rnA : ∀ᵐ ω ∂(s.den μ), A'.Regular ω := by filter_upwards [hA.regular] with ω hω using Ev.not_regular vA nA hω
  obtain ⟨AB, h5, s5⟩ := C07_curve_and c cA cB
  obtain ⟨AnB, h8, s8⟩ := C07_curve_and c cA cB'
  obtain ⟨nAB, h11, s11⟩ := C07_curve_and c cA' cB
  have syA : A'.symbols ⊆ A.symbols ∪ B.symbols := (Ev.not_symbols vA nA).trans Finset.subset_union_left
  have syB : B'.symbols ⊆ A.symbols ∪ B.symbols := (Ev.not_symbols vB nB).trans Finset.subset_union_right
  obtain ⟨N1, k1⟩ := ask cA hA.proper Finset.subset_union_left hA.regular
  obtain ⟨N2, k2⟩ := ask cB hB.proper Finset.subset_union_right hB.regular
  obtain ⟨N3, k3⟩ := ask s5 (hA.proper.land hB.proper h5) (Ev.land_symbols h5 Finset.subset_union_left Finset.subset_union_right)
    (by filter_upwards [hA.regular, hB.regular] with ω h1 h2 using Ev.land_regular h5 h1 h2)
  obtain ⟨N4, k4⟩ := ask s8 (hA.proper.land (hB.proper.not nB) h8) (Ev.land_symbols h8 Finset.subset_union_left syB)
    (by filter_upwards [hA.regular, rnB] with ω h1 h2 using Ev.land_regular h8 h1 h2)
  obtain ⟨N5, k5⟩ := ask s11 ((hA.proper.not nA).land hB.proper h11) (Ev.land_symbols h11 syA Finset.subset_union_right)
    (by filter_upwards [rnA, hB.regular] with ω h1 h2 using Ev.land_regular h11 h1 h2)
  refine ⟨N1 + N2 + N3 + N4 + N5, fun n hn => info_of_probs hc hs hw hA hB h5 nB h8 nA h11 ?_⟩
  intro e he
  simp only [List.mem_cons, List.not_mem_nil, or_false] at he
  rcases he with rfl | rfl | rfl | rfl | rfl
  · exact k1 n (by omega)
  · exact k2 n (by omega)
  · exact k3 n (by omega)
  · exact k4 n (by omega)
  · exact k5 n (by omega)

/-! ## Non-vacuity -/

/-- `exp(2*X) < 4`, with `exp` of base two. -/
noncomputable def powLt : Ev := .ivl (.exp (.poly (.id "X") [0, 2]) 2) ⟨⊥, ((4 : ℝ) : EReal), true, true⟩

/-- `exp(2*X) >= 4`. -/
noncomputable def powGe : Ev := .ivl (.exp (.poly (.id "X") [0, 2]) 2) ⟨((4 : ℝ) : EReal), ⊤, false, true⟩

theorem powLt_not : powLt.not ctx0 = .ok powGe := by
  have h : ((4 : ℝ) : EReal) < ⊤ := EReal.coe_lt_top _
  simp [powLt, powGe, Ev.not, SSet.invert, Piece.invert, Ivl.invert, mkIvl, h, bind, Except.bind, notIvl, EReal.coe_ne_bot, EReal.coe_ne_top]

/-- The hypotheses are met by `exp(2*X) < 4` and `Y == 'a'`, on the uniform variable and the coin. -/
example : ctx0.Correct ∧ ctx0.Linear ∧ unifCoin.WF ctx0 (libOf muU) muU ∧ unifCoin.Wide ∧ AsksTyped ctx0 muU unifCoin powLt ∧ AsksTyped ctx0 muU unifCoin (strEv "Y" "a") ∧
    powLt.Curved (fun _ _ => True) (· = "X") ∧ (strEv "Y" "a").Curved (fun _ _ => True) (· = "X") ∧ powLt.not ctx0 = .ok powGe ∧ (strEv "Y" "a").not ctx0 = .ok (nomN "Y" "a") ∧
    powGe.Curved (fun _ _ => True) (· = "X") ∧ (nomN "Y" "a").Curved (fun _ _ => True) (· = "X") ∧ unifCoin.BaseOn (powLt.symbols ∪ (strEv "Y" "a").symbols) := by
  have hk : ∀ᵐ ω ∂(unifCoin.den muU), (∃ x : ℝ, ω "X" = some (.num x)) ∧ ∃ y, ω "Y" = some (.str y) := by
    have := unifCoin_wf.kind (K := fun k => decide (k = "X")) (by
      refine .prod ?_
      intro s hs
      simp only [List.mem_cons, List.not_mem_nil, or_false] at hs
      rcases hs with rfl | rfl
      · refine .real (Filter.Eventually.of_forall ?_)
        intro x p hp
        simp only [List.mem_cons, List.not_mem_nil, or_false] at hp
        subst hp
        simp only [decide_true]
        exact ⟨x, by simp [Env.extend, Tr.eval, baseAsg]⟩
      · exact .nominal (by decide))
    filter_upwards [this] with ω h
    exact ⟨h "X" (by simp [unifCoin, Spe.symbols, Spe.symbolsL, leafX, coin]), h "Y" (by simp [unifCoin, Spe.symbols, Spe.symbolsL, leafX, coin])⟩
  have ht : Tr.Chain "X" (.exp (.poly (.id "X") [0, 2]) 2) := .exp (.poly .id (by norm_num)) (by norm_num)
  have lt : powLt.ChainLit "X" := .ivl ht ⟨EReal.bot_lt_coe _, by simp, by simp⟩
  have ge : powGe.ChainLit "X" := .ivl ht ⟨EReal.coe_lt_top _, by simp, by simp⟩
  have cl : (strEv "Y" "a").All (Clean unifCoin.atomSyms) := .lit rfl (by rintro ⟨k, -, hk⟩; simp [unifCoin, Spe.atomSyms, Spe.atomSymsL, leafX, coin] at hk)
  have cl' : powLt.All (Clean unifCoin.atomSyms) := .lit rfl (by rintro ⟨k, -, hk⟩; simp [unifCoin, Spe.atomSyms, Spe.atomSymsL, leafX, coin] at hk)
  refine ⟨ctx0_correct, ctx0_linear, unifCoin_wf, .prod, ⟨⟨lt.made, .lit rfl (by simp [NomId, powLt]), cl'⟩, ?_, Filter.Eventually.of_forall ?_, ?_⟩,
    ⟨⟨strEv_made _ _ _, .lit rfl rfl, cl⟩, ?_, Filter.Eventually.of_forall ?_, ?_⟩, .curve rfl (by simp) lt (.inl ⟨fun _ => some (.num 0), ?_⟩), .plain (k := "Y") rfl (by decide) (.nom (by simp [Nom.WF])),
    powLt_not, ?_, .curve rfl (by simp) ge (.inl ⟨fun _ => some (.num 1), ?_⟩), .plain (k := "Y") rfl (by decide) (.nom (by simp [Nom.WF])), .prod ?_⟩
  · simp [powLt, Ev.symbols, Tr.symbols, unifCoin, Spe.symbols, Spe.symbolsL, leafX, coin]
  · intro ω; simp [powLt, Ev.Regular, Tr.Regular]
  · filter_upwards [hk] with ω hω
    obtain ⟨⟨x, hx⟩, -⟩ := hω
    exact ⟨_, by simp [Tr.eval, onNum, hx, expVal, polyVal]; rfl⟩
  · simp [strEv, Ev.symbols, Tr.symbols, unifCoin, Spe.symbols, Spe.symbolsL, leafX, coin]
  · intro ω; simp [strEv, Ev.Regular, Tr.Regular]
  · filter_upwards [hk] with ω hω
    obtain ⟨y, hy⟩ := hω.2
    exact ⟨y, by simpa [Tr.eval] using hy⟩
  · unfold powLt
    rw [Ev.holds_ivl]
    refine ⟨1, by simp [Tr.eval, onNum, expVal, polyVal], ?_⟩
    simp only [Ivl.Mem, if_true]
    exact ⟨EReal.bot_lt_coe _, by exact_mod_cast (by norm_num : (1 : ℝ) < 4)⟩
  · rfl
  · unfold powGe
    rw [Ev.holds_ivl]
    refine ⟨4, by simp [Tr.eval, onNum, expVal, polyVal]; norm_num, ?_⟩
    simp [Ivl.Mem]
  · intro s hs
    simp only [List.mem_cons, List.not_mem_nil, or_false] at hs
    rcases hs with rfl | rfl
    · refine .real ?_; intro s _ hs; simpa using hs
    · exact .nominal

end Sppl
