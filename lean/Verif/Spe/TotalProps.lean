import Verif.Spe.TotPubLemmas
import Verif.Spe.CondProps

set_option linter.all false

/-!
# C18, C21, C22: `prob` and `condition` return

For SPEs that are products, or mixtures of products (`Spe.Wide`), and events about base variables (`Spe.BaseOn`) that are
Boolean combinations of `X in S` (`Ev.Simple`, with finite numbers).
-/

namespace Sppl
open Classical MeasureTheory
open scoped ENNReal ProbabilityTheory

variable {c : Ctx} (hc : c.Correct) {L : Lib} {μ : Dist → Measure ℝ} {hash : Spe → ℤ} {s : Spe} {e : Ev}

theorem Spe.Wide.not_leaf (h : s.Wide) : s.isLeaf = false := by cases h <;> rfl

theorem Spe.Wide.canAsk {Q : String → EReal → Prop} (h : s.Wide) (he : e.Simple Q) (hn : e.NomFree s.atomSyms) : s.CanAsk c e := by
  cases h <;> exact ⟨he.made.1, hn⟩

include hc

/-- **C18 (`prob` returns).** For a product or a mixture of products of any size and depth, and a Boolean combination of
events `X in S` about its base variables, `prob` returns, and returns the probability of the event. -/
theorem C18_total (hs : s.WF c L μ) (hw : s.Wide) (he : e.Simple (fun _ _ => True)) (hb : s.BaseOn e.symbols) (hsym : e.symbols ⊆ s.symbols)
    (hn : e.NomFree s.atomSyms) (n : ℕ) : s.prob c L n e = .ok ((s.den μ).real {ω | e.holds ω}) := by
  obtain ⟨p, hp⟩ := prob_total (L := L) hc hw.not_leaf he hsym hn n (fun F _ hF => probMem_wide_total hc hw hs hb F (fun m hm => (hF m hm).1))
  rw [hp, C18_prob_partial hc hs (hw.canAsk he hn) hsym (Filter.Eventually.of_forall (he.made (c := c)).2) hp]

/-- **C21, C22 (`condition` returns).** If moreover the symbols of discrete leaves are only compared with integers, the
event compares every variable with values of its kind, and the event has positive probability, then from some
recursion depth on `condition` returns, and what it returns denotes the conditional distribution. -/
theorem C21_total {E : String → Env} (hs : s.WF c L μ) (hE : s.Ready E) (hw : s.Wide) (he : e.Simple s.Whole) (hb : s.BaseOn e.symbols) (hsym : e.symbols ⊆ s.symbols)
    (hn : e.NomFree s.atomSyms) (hk : ∀ᵐ ω ∂(s.den μ), e.Suits ω) (hm : 0 < s.den μ {ω | e.holds ω}) :
    ∃ N, ∀ n, N ≤ n → ∃ s', s.condition c L hash n e = .ok s' ∧ s'.den μ = (s.den μ)[|{ω | e.holds ω}] := by
  obtain ⟨N, hN⟩ := condition_total (L := L) (hash := hash) hc hs hE hw.not_leaf he hsym hn hk hm.ne'
    (fun n F _ hF => probMem_wide_total hc hw hs hb F (fun m hm => (hF m hm).1))
    (fun n F hne hF hd h0 => condMem_wide_total hc hw hs hE hb F hne (fun m hm => (hF m hm).1) (fun m hm => (hF m hm).2) hd h0)
  refine ⟨N, fun n hn' => ?_⟩
  obtain ⟨s', h⟩ := hN n hn'
  exact ⟨s', h, C21_condition_partial hc ⟨hs, hE, ⟨hw.canAsk he hn, hsym, Filter.Eventually.of_forall (he.made (c := c)).2⟩, Or.inr hk⟩ h⟩

/-- **C22 (`condition` returns exactly on events of positive probability).** -/
theorem C22_iff {E : String → Env} (hs : s.WF c L μ) (hE : s.Ready E) (hw : s.Wide) (he : e.Simple s.Whole) (hb : s.BaseOn e.symbols) (hsym : e.symbols ⊆ s.symbols)
    (hn : e.NomFree s.atomSyms) (hk : ∀ᵐ ω ∂(s.den μ), e.Suits ω) :
    ∃ N, ∀ n, N ≤ n → ((∃ s', s.condition c L hash n e = .ok s') ↔ 0 < s.den μ {ω | e.holds ω}) := by
  by_cases hm : 0 < s.den μ {ω | e.holds ω}
  · obtain ⟨N, hN⟩ := C21_total hc hs hE hw he hb hsym hn hk hm
    exact ⟨N, fun n hn' => ⟨fun _ => hm, fun _ => by obtain ⟨s', h, -⟩ := hN n hn'; exact ⟨s', h⟩⟩⟩
  · refine ⟨0, fun n _ => ⟨?_, fun h => absurd h hm⟩⟩
    rintro ⟨s', h⟩
    exact C22_positive_partial hc ⟨hs, hE, ⟨hw.canAsk he hn, hsym, Filter.Eventually.of_forall (he.made (c := c)).2⟩, Or.inr hk⟩ h

/-- **C18 (one basic event).** `prob` returns the probability of `X in S` for every SPE, leaves and mixtures of leaves included. -/
theorem C18_total_basic {Q : String → EReal → Prop} (hs : s.WF c L μ) {k : String} (hk : e.basic? = some (.id k)) (he : e.Simple Q) (hb : s.BaseOn e.symbols)
    (hsym : e.symbols ⊆ s.symbols) (hn : e.NomFree s.atomSyms) (ha : s.CanAsk c e) (n : ℕ) : s.prob c L n e = .ok ((s.den μ).real {ω | e.holds ω}) := by
  obtain ⟨p, hp⟩ := prob_lit_total (L := L) hc hs hk he hb hsym hn n
  rw [hp, C18_prob_partial hc hs ha hsym (Filter.Eventually.of_forall (he.made (c := c)).2) hp]

/-- **C21, C22 (one basic event).** `condition` on `X in S`, an event of positive probability, returns for every SPE. -/
theorem C22_total_basic {E : String → Env} (hs : s.WF c L μ) (hE : s.Ready E) {k : String} (hk : e.basic? = some (.id k)) (he : e.Simple s.Whole) (hb : s.BaseOn e.symbols)
    (hsym : e.symbols ⊆ s.symbols) (hn : e.NomFree s.atomSyms) (hm : 0 < s.den μ {ω | e.holds ω}) (n : ℕ) : ∃ s', s.condition c L hash (n + 1) e = .ok s' :=
  condition_lit_total (L := L) hc hs hE hk he hb hsym hn hm.ne' n

omit hc

/-! ## Without `Wide`, `prob` can raise -/

/-- `X <= 0`. -/
noncomputable def lowX : Ivl EReal := ⟨⊥, ((0 : ℝ) : EReal), true, false⟩
/-- `X >= 1`. -/
noncomputable def highX : Ivl EReal := ⟨((1 : ℝ) : EReal), ⊤, false, true⟩
/-- `(X <= 0) | (X >= 1)`. -/
noncomputable def endsEv : Ev := .or [.ivl (.id "X") lowX, .ivl (.id "X") highX]
/-- The union of the two intervals. -/
noncomputable def endsUn : Un EReal := ⟨none, none, [lowX, highX], [.ivl lowX, .ivl highX], [.ivl lowX, .ivl highX]⟩

theorem one_ne_bot' : (1 : EReal) ≠ ⊥ := EReal.coe_ne_bot 1
theorem one_ne_top' : (1 : EReal) ≠ ⊤ := EReal.coe_ne_top 1
theorem not_one_le_zero : ¬ (1 : EReal) ≤ 0 := not_le.2 zero_lt_one

theorem low_or_high : SSet.or ctx0.σ (.pc (.ivl lowX)) (.pc (.ivl highX)) = .ok (.un endsUn) := by
  have : Ivl.and highX lowX = .ok .empty := by
    simp [Ivl.and, lowX, highX, Ivl.has, one_ne_bot', not_one_le_zero]
  have h1 : lowX ≠ highX := by simp [lowX, highX]
  have h2 : (Piece.ivl lowX : Piece EReal) ≠ .ivl highX := by simpa using h1
  have hg : (!highX.has lowX.a && !highX.has lowX.b && !lowX.has highX.a && !lowX.has highX.b) = true := by
    simp [lowX, highX, Ivl.has, not_one_le_zero, one_ne_bot']
  simp only [SSet.or, Piece.or, Ivl.or, this, bind, Except.bind, if_neg h1]
  rw [if_pos (by simpa [SSet.isEmpty] using hg)]
  simp [mkUnion, endsUn, SSet.isUnion, SSet.piece?, Piece.nom?, Piece.fin?, Piece.ivl?, ctx0, Orders.id, List.filterMap, h1, List.findSome?]

theorem ends_raise : SSet.and ctx0.σ (.pc (.ivl unitIvl)) (.un endsUn) = .error .assertion := by
  have h1 : Ivl.and lowX unitIvl = .ok (.pc (.fin {((0 : ℝ) : EReal)})) := by
    simp [Ivl.and, lowX, unitIvl, Ivl.has, not_one_le_zero, one_ne_bot']
  have h2 : Ivl.and highX unitIvl = .ok (.pc (.fin {((1 : ℝ) : EReal)})) := by
    simp [Ivl.and, highX, unitIvl, Ivl.has, not_one_le_zero, one_ne_top', one_ne_top'.lt_top]
  simp [SSet.and, endsUn, Un.andPiece, andOptFin, Piece.and, h1, h2, bind, Except.bind, pure, Except.pure, finishAnd, mkUnion, SSet.isUnion, SSet.piece?, Piece.nom?, Piece.fin?, Piece.ivl?, SSet.isEmpty, List.mapM_cons, List.filterMap]

theorem ctx0_iter_one : ctx0.iter {1} = [1] := by simp [ctx0]

theorem ends_solve (n : ℕ) : endsEv.solve ctx0 (n + 3) = .ok (.un endsUn) := by
  have ext : extReals ctx0 = .ok (.un ⟨none, some {⊥, ⊤}, [⟨⊥, ⊤, true, true⟩], [.fin {⊥, ⊤}, .ivl ⟨⊥, ⊤, true, true⟩], [.fin {⊥, ⊤}, .ivl ⟨⊥, ⊤, true, true⟩]⟩) := by
    simp [extReals, SSet.reals, mkUnion, SSet.isUnion, SSet.piece?, Piece.nom?, Piece.fin?, Piece.ivl?, ctx0, Orders.id, List.filterMap]
  have inv : ∀ i : Ivl EReal, i = lowX ∨ i = highX → Tr.invert ctx0 (n + 1) (.id "X") (.pc (.ivl i)) = .ok (.pc (.ivl i)) := by
    intro i hi
    have h1 : Ivl.and ⟨⊥, ⊤, true, true⟩ i = .ok (.pc (.ivl i)) := by
      rcases hi with rfl | rfl <;> simp [Ivl.and, lowX, highX, Ivl.has, one_ne_bot', one_ne_top', one_ne_top'.symm, one_ne_top'.lt_top, one_ne_bot'.bot_lt, mkIvl, bind, Except.bind]
    have h2 : i.has ⊥ = false ∧ i.has ⊤ = false := by
      rcases hi with rfl | rfl <;> simp [lowX, highX, Ivl.has, one_ne_bot', one_ne_top']
    have h3 : Finset.filter (fun v => i.has v = true) {⊥, ⊤} = (∅ : Finset EReal) := by
      ext x; simp; rintro (rfl | rfl) <;> simp [h2]
    simp [Tr.invert, Tr.range, ext, SSet.and, Un.andPiece, andOptFin, Piece.and, h1, h3, finOrEmpty, finishAnd, SSet.isEmpty, bind, Except.bind, pure, Except.pure, List.mapM_cons, Tr.invertStep, Tr.invertInterval]
  have h01 : SSet.and ctx0.σ (.pc (.fin {0, 1})) (.pc (.fin {1})) = .ok (.pc (.fin {1})) := by
    have : ({0, 1} : Finset EReal) ∩ {1} = {1} := by ext x; simp
    simp [SSet.and, Piece.and, finOrEmpty, this]
  have lit : ∀ i : Ivl EReal, i = lowX ∨ i = highX → Ev.invert ctx0 (n + 2) (.ivl (.id "X") i) (.pc (.fin {1})) = .ok (.pc (.ivl i)) := by
    intro i hi
    rw [Ev.invert, h01]
    simp [Ev.invertFinite, ctx0_iter_one, Ev.finvReal, makeUnion, reduceM, inv i hi, bind, Except.bind, pure, Except.pure, List.mapM_cons]
  have hsym : (Ev.or [.ivl (.id "X") lowX, .ivl (.id "X") highX]).symbols = {"X"} := by simp [Ev.symbols, Ev.symbolsL, Tr.symbols]
  unfold endsEv
  rw [Ev.solve, hsym, if_neg (by simp), Ev.invert, h01]
  · simp [Ev.invertFinite, lit, makeUnion, reduceM, bind, Except.bind, pure, Except.pure, List.mapM_cons, low_or_high, List.foldlM]
  all_goals simp

/-- C18: on a leaf, `prob` can raise on such an event: for a variable that is uniform on `[0, 1]`, an `AssertionError` on
`(X <= 0) | (X >= 1)`, because `Union` refuses the two sets `{0}` and `{1}`. -/
theorem C18_raises : (leafX "X").WF ctx0 (libOf muU) muU ∧ endsEv.Simple (fun _ _ => True) ∧ (leafX "X").BaseOn endsEv.symbols ∧
    endsEv.symbols ⊆ (leafX "X").symbols ∧ endsEv.NomFree (leafX "X").atomSyms ∧ ∀ n, (leafX "X").prob ctx0 (libOf muU) (n + 3) endsEv = .error .assertion := by
  refine ⟨leafX_wf _ _, ?_, .real (by intro s _ hs; simpa using hs), ?_, ?_, fun n => ?_⟩
  · refine .or (by simp) ?_
    intro e he
    simp only [List.mem_cons, List.not_mem_nil, or_false] at he
    rcases he with rfl | rfl
    · exact .ivl ⟨EReal.bot_lt_coe _, by simp [lowX], by simp [lowX]⟩ ⟨fun _ => trivial, fun _ => trivial⟩
    · exact .ivl ⟨EReal.coe_lt_top _, by simp [highX, one_ne_bot'], by simp [highX]⟩ ⟨fun _ => trivial, fun _ => trivial⟩
  · simp [endsEv, Ev.symbols, Ev.symbolsL, Tr.symbols, Spe.symbols, leafX]
  · simp [endsEv, Ev.NomFree, Ev.NomFreeL]
  · have hs : leafSubst ctx0 (n + 3) "X" [("X", .id "X")] endsEv = .ok endsEv := leafSubst_base .base (by simp [endsEv, Ev.symbols, Ev.symbolsL, Tr.symbols]) _
    simp [Spe.prob, leafX, Spe.isLeaf, Spe.leafEnv, leafProb, hs, ends_solve, leafProbSet, ends_raise, bind, Except.bind]

/-! ## Non-vacuity -/

/-- A uniform variable and a coin. -/
noncomputable def unifCoin : Spe := .prod [leafX "X", coin "Y"]

/-- `(X < 1/2) | (Y == 'a')`. -/
noncomputable def unifCoinEv : Ev := .or [.ivl (.id "X") ⟨⊥, ((1 / 2 : ℝ) : EReal), true, true⟩, strEv "Y" "a"]

theorem unifCoin_wf : unifCoin.WF ctx0 (libOf muU) muU := by
  refine .prod ?_ (by simp) ?_
  · intro s hs
    simp only [List.mem_cons, List.not_mem_nil, or_false] at hs
    rcases hs with rfl | rfl
    · exact leafX_wf _ _
    · exact coin_wf _ _ _ _
  · simp [Spe.symbolsL, Spe.symbols, leafX, coin]

theorem unifCoinEv_simple (Q : String → EReal → Prop) (hQ : Q "X" ((1 / 2 : ℝ) : EReal)) : unifCoinEv.Simple Q := by
  refine .or (by simp) ?_
  intro e he
  simp only [List.mem_cons, List.not_mem_nil, or_false] at he
  rcases he with rfl | rfl
  · exact .ivl ⟨EReal.bot_lt_coe _, by simp, by simp⟩ ⟨by simp, fun _ => hQ⟩
  · exact .nom (by simp [Nom.WF])

theorem unifCoin_asks : unifCoin.Wide ∧ unifCoin.BaseOn unifCoinEv.symbols ∧ unifCoinEv.symbols ⊆ unifCoin.symbols ∧ unifCoinEv.NomFree unifCoin.atomSyms := by
  refine ⟨.prod, .prod ?_, ?_, ?_⟩
  · intro s hs
    simp only [List.mem_cons, List.not_mem_nil, or_false] at hs
    rcases hs with rfl | rfl
    · refine .real ?_; intro s _ hs; simpa using hs
    · exact .nominal
  · simp [unifCoinEv, unifCoin, strEv, Ev.symbols, Ev.symbolsL, Tr.symbols, Spe.symbols, Spe.symbolsL, leafX, coin]
  · simp [unifCoinEv, unifCoin, strEv, Ev.NomFree, Ev.NomFreeL, Spe.atomSyms, Spe.atomSymsL, leafX, coin]

theorem unifCoin_a {e : Ev} (he : ∀ ω, (strEv "Y" "a").holds ω → e.holds ω) : 0 < unifCoin.den muU {ω | e.holds ω} := by
  have hm : ClauseInv (· ∈ unifCoin.atomSyms) [("Y", strEv "Y" "a")] := by
    refine ⟨by simp, ?_⟩
    intro p hp
    rw [List.mem_singleton.1 hp]
    exact ⟨.nom (by simp [Nom.WF]), .lit rfl rfl, .lit rfl (by simp [NumOn, unifCoin, Spe.atomSyms, Spe.atomSymsL, leafX, coin])⟩
  have hsym : Spe.symbolsL [leafX "X", coin "Y"] = [{"X"}, {"Y"}] := by simp [Spe.symbolsL, Spe.symbols, leafX, coin]
  have hY : lookupChild [{"X"}, {"Y"}] "Y" = .ok 1 := by decide
  have mY := coins_mem (libOf muU) 0 "Y"
  have f0 : conjProb ctx0 (Spe.symbolsL [leafX "X", coin "Y"]) (Spe.probMemL ctx0 (libOf muU) 1 [leafX "X", coin "Y"]) [[("Y", strEv "Y" "a")]] = .ok (1/2) := by
    rw [hsym]
    simp [conjProb, conjKeys, conjKey, conjClause, conjClauseLoop, hY, Clause.addAnd, Spe.probMemL, mY, bind, Except.bind, pure, Except.pure,
      List.mapM_cons, List.foldlM]
  have h := prodConj_ok ctx0_correct unifCoin_wf hm f0
  rw [pos_iff_ne_zero]
  intro h0
  have : unifCoin.den muU (Clause.sat [("Y", strEv "Y" "a")]) = 0 := by
    refine measure_mono_null ?_ h0
    intro ω hω
    have := hω ("Y", strEv "Y" "a") (by simp)
    exact he ω this
  have e : (Spe.prod [leafX "X", coin "Y"]) = unifCoin := rfl
  rw [e, measureReal_def, this] at h
  norm_num at h

theorem unifCoin_mass : 0 < unifCoin.den muU {ω | unifCoinEv.holds ω} :=
  unifCoin_a (fun ω h => (Ev.holds_or ω _).2 ⟨strEv "Y" "a", by simp, h⟩)

/-- C18, C21, C22: the hypotheses are met, so `prob` and `condition` return for the uniform variable and the coin. -/
example : (∀ n, ∃ p, unifCoin.prob ctx0 (libOf muU) n unifCoinEv = .ok p ∧ 0 < p) ∧
    ∃ N, ∀ n, N ≤ n → ∃ s', unifCoin.condition ctx0 (libOf muU) (fun _ => 0) n unifCoinEv = .ok s' ∧ s'.den muU = (unifCoin.den muU)[|{ω | unifCoinEv.holds ω}] := by
  obtain ⟨h1, h2, h3, h4⟩ := unifCoin_asks
  have hprob := unifCoin_wf.prob
  constructor
  · intro n
    exact ⟨_, C18_total ctx0_correct unifCoin_wf h1 (unifCoinEv_simple _ trivial) h2 h3 h4 n, real_pos unifCoin_mass.ne'⟩
  · refine C21_total (E := fun _ => []) ctx0_correct unifCoin_wf ?_ h1 (unifCoinEv_simple _ (Or.inl ?_)) h2 h3 h4 ?_ unifCoin_mass
    · refine .prod ?_
      intro s hs
      simp only [List.mem_cons, List.not_mem_nil, or_false] at hs
      rcases hs with rfl | rfl
      · exact .real rfl
      · exact .nominal
    · refine .prod ?_
      intro s hs
      simp only [List.mem_cons, List.not_mem_nil, or_false] at hs
      rcases hs with rfl | rfl
      · exact .real (by simp)
      · exact .nominal
    · refine suits_of_kinded (K := fun k => decide (k = "X")) unifCoin_wf ?_ h3 ?_
      · refine .prod ?_
        intro s hs
        simp only [List.mem_cons, List.not_mem_nil, or_false] at hs
        rcases hs with rfl | rfl
        · refine .real (Filter.Eventually.of_forall ?_)
          intro x p hp
          simp only [List.mem_cons, List.not_mem_nil, or_false] at hp
          subst hp
          simp only [decide_true]
          exact ⟨x, by simp [Env.extend, Tr.eval, baseAsg]⟩
        · exact .nominal (by decide)
      · intro ω h
        obtain ⟨x, hx⟩ := h "X" (by simp [unifCoinEv, Ev.symbols, Ev.symbolsL, Tr.symbols])
        obtain ⟨y, hy⟩ := h "Y" (by simp [unifCoinEv, strEv, Ev.symbols, Ev.symbolsL, Tr.symbols])
        refine ⟨?_, ?_, trivial⟩
        · intro s hs
          simp only [Tr.symbols, Finset.mem_singleton] at hs
          subst hs; exact ⟨x, hx⟩
        · exact ⟨"Y", y, rfl, hy⟩

/-- C18, C22 (one basic event): the uniform leaf and `X <= 1/2`. -/
example : (∀ n, ∃ p, (leafX "X").prob ctx0 (libOf muU) n (.ivl (.id "X") ⟨⊥, ((1 / 2 : ℝ) : EReal), true, false⟩) = .ok p) ∧
    (leafX "X").Ready (fun _ => []) ∧ (leafX "X").NotDisc "X" := by
  refine ⟨fun n => ⟨_, C18_total_basic (Q := fun _ _ => True) ctx0_correct (leafX_wf _ _) rfl
    (.ivl ⟨EReal.bot_lt_coe _, by simp, by simp⟩ ⟨fun _ => trivial, fun _ => trivial⟩) (.real (by intro s _ hs; simpa using hs)) ?_ ?_ ?_ n⟩, .real rfl, .real (by simp)⟩
  · simp [Ev.symbols, Tr.symbols, Spe.symbols, leafX]
  · simp [Ev.NomFree]
  · exact .ivl (.id _) ⟨EReal.bot_lt_coe _, by simp, by simp⟩

end Sppl
