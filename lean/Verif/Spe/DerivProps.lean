import Verif.Spe.DerivLemmas
import Verif.Spe.CurveProps

set_option linter.all false

/-!
# C18, C21, C22: `prob` and `condition` return on conjunctions, also about derived variables

For all SPEs (not only products and mixtures of products) and for conjunctions of comparisons.  The variables may be derived
variables (`transform`), defined from the symbol of their leaf by any number of increasing and decreasing expressions
(`Spe.CurvyLeaf`).  The comparisons may be about expressions of them, as in `CurveProps`.
-/

namespace Sppl
open Classical MeasureTheory
open scoped ENNReal ProbabilityTheory

variable {c : Ctx} (hc : c.Correct) (hl : c.Linear) {L : Lib} {μ : Dist → Measure ℝ} {hash : Spe → ℤ} {s : Spe} {e : Ev} {T : String → Prop}

include hc hl

/-- **C18 (`prob` returns on conjunctions about derived variables).** For a sum or a product of any size and depth,
`prob` returns the probability of the conjunction, from some depth of the stack on. -/
theorem C18_conj_total (hs : s.WF c L μ) (hw : s.isLeaf = false) (he : e.Curved (fun _ _ => True) T) (hcl : e.IsClause) (hb : s.Leaves (Spe.CurvyLeaf T e.symbols))
    (hsym : e.symbols ⊆ s.symbols) (hn : e.NomFree s.atomSyms) (hr : ∀ᵐ ω ∂(s.den μ), e.Regular ω) :
    ∃ N, ∀ n, N ≤ n → s.prob c L n e = .ok ((s.den μ).real {ω | e.holds ω}) := by
  obtain ⟨N, hN⟩ := prob_flat (L := L) hc hl hw hs he hcl hsym hn hb
  refine ⟨N, fun n hn' => ?_⟩
  obtain ⟨p, hp⟩ := hN n hn'
  have ha : s.CanAsk c e := by
    cases s with
    | sum => exact ⟨he.made, hn⟩
    | prod => exact ⟨he.made, hn⟩
    | _ => simp [Spe.isLeaf, Spe.leafEnv] at hw
  rw [hp, C18_prob_partial hc hs ha hsym hr hp]

/-- **C18 (`prob` of a leaf returns on conjunctions about its derived variables).** -/
theorem C18_leaf_conj_total {X : String} {env : Env} (hs : s.WF c L μ) (hw : s.leafEnv = some (X, env)) (henv : env.Curves) (he : e.AndOf Ev.AnyLit) (ha : s.CanAsk c e)
    (hsym : e.symbols ⊆ s.symbols) (hr : ∀ᵐ ω ∂(s.den μ), e.Regular ω) :
    ∃ N, ∀ n, N ≤ n → s.prob c L n e = .ok ((s.den μ).real {ω | e.holds ω}) := by
  obtain ⟨N, hN⟩ := leaf_conj_solve (c := c) hc hl hs hw henv he hsym
  refine ⟨N, fun n hn' => ?_⟩
  obtain ⟨r, S, h1, h2, h3⟩ := hN n hn'
  obtain ⟨-, p, hp⟩ := leafProb_curve (L := L) hs hw h1 h2 h3
  have hp' : s.prob c L n e = .ok p := by
    unfold Spe.prob
    rw [if_pos (by simp [Spe.isLeaf, hw])]; exact hp
  rw [hp', C18_prob_partial hc hs ha hsym hr hp']

/-- **C21, C22 (`condition` returns on conjunctions about derived variables).** If the derived variables of the event are not
those of discrete leaves, the symbols of discrete leaves are compared directly and with integers, and the event has
positive probability, `condition` returns the conditional distribution, from some depth of the stack on. -/
theorem C21_conj_total {E : String → Env} (hs : s.WF c L μ) (hE : s.Ready E) (hw : s.isLeaf = false) (he : e.Curved s.Whole T) (hcl : e.IsClause)
    (hb : s.Leaves (Spe.CurvyContLeaf T e.symbols)) (hsym : e.symbols ⊆ s.symbols) (hn : e.NomFree s.atomSyms)
    (hr : ∀ᵐ ω ∂(s.den μ), e.Regular ω) (hk : ∀ᵐ ω ∂(s.den μ), e.Suits ω) (hm : 0 < s.den μ {ω | e.holds ω}) :
    ∃ N, ∀ n, N ≤ n → ∃ s', s.condition c L hash n e = .ok s' ∧ s'.den μ = (s.den μ)[|{ω | e.holds ω}] := by
  obtain ⟨N, hN⟩ := condition_flat (L := L) (hash := hash) hc hl hs hE hw he hcl hr hsym hn hm.ne' hb
  refine ⟨N, fun n hn' => ?_⟩
  obtain ⟨s', h⟩ := hN n hn'
  have ha : s.CanAsk c e := by
    cases s with
    | sum => exact ⟨he.made, hn⟩
    | prod => exact ⟨he.made, hn⟩
    | _ => simp [Spe.isLeaf, Spe.leafEnv] at hw
  exact ⟨s', h, C21_condition_partial hc ⟨hs, hE, ⟨ha, hsym, hr⟩, Or.inr hk⟩ h⟩

/-- **C21, C22 (`condition` of a leaf returns on conjunctions about its derived variables).** -/
theorem C21_leaf_conj_total {E : String → Env} {X : String} {env : Env} (hs : s.WF c L μ) (hE : s.Ready E) (hw : s.leafEnv = some (X, env)) (hd : s.NotDisc X) (henv : env.Curves)
    (he : e.AndOf Ev.AnyLit) (ha : s.CanAsk c e) (hsym : e.symbols ⊆ s.symbols) (hr : ∀ᵐ ω ∂(s.den μ), e.Regular ω) (hk : ∀ᵐ ω ∂(s.den μ), e.Suits ω) (hm : 0 < s.den μ {ω | e.holds ω}) :
    ∃ N, ∀ n, N ≤ n → ∃ s', s.condition c L hash n e = .ok s' ∧ s'.den μ = (s.den μ)[|{ω | e.holds ω}] := by
  obtain ⟨N, hN⟩ := leaf_conj_solve (c := c) hc hl hs hw henv he hsym
  refine ⟨N, fun n hn' => ?_⟩
  obtain ⟨r, S, h1, h2, h3⟩ := hN n hn'
  have hlo : LeafEvOK c s e := by
    cases s with
    | sum => simp [Spe.leafEnv] at hw
    | prod => simp [Spe.leafEnv] at hw
    | _ => exact ha
  obtain ⟨s', hs'⟩ := leafCond_curve (L := L) hc hs hw h1 h2 h3 hlo hr (fun x => .inl hd) hm.ne'
  have h : s.condition c L hash n e = .ok s' := by
    unfold Spe.condition
    rw [if_pos (by simp [Spe.isLeaf, hw])]; exact hs'
  exact ⟨s', h, C21_condition_partial hc ⟨hs, hE, ⟨ha, hsym, hr⟩, Or.inr hk⟩ h⟩

/-- **C22 (`condition` returns exactly on conjunctions of positive probability).** -/
theorem C22_conj_iff {E : String → Env} (hs : s.WF c L μ) (hE : s.Ready E) (hw : s.isLeaf = false) (he : e.Curved s.Whole T) (hcl : e.IsClause)
    (hb : s.Leaves (Spe.CurvyContLeaf T e.symbols)) (hsym : e.symbols ⊆ s.symbols) (hn : e.NomFree s.atomSyms)
    (hr : ∀ᵐ ω ∂(s.den μ), e.Regular ω) (hk : ∀ᵐ ω ∂(s.den μ), e.Suits ω) :
    ∃ N, ∀ n, N ≤ n → ((∃ s', s.condition c L hash n e = .ok s') ↔ 0 < s.den μ {ω | e.holds ω}) := by
  by_cases hm : 0 < s.den μ {ω | e.holds ω}
  · obtain ⟨N, hN⟩ := C21_conj_total hc hl hs hE hw he hcl hb hsym hn hr hk hm
    exact ⟨N, fun n hn' => ⟨fun _ => hm, fun _ => by obtain ⟨s', h, -⟩ := hN n hn'; exact ⟨s', h⟩⟩⟩
  · refine ⟨0, fun n _ => ⟨?_, fun h => absurd h hm⟩⟩
    rintro ⟨s', h⟩
    have ha : s.CanAsk c e := by
      cases s with
      | sum => exact ⟨he.made, hn⟩
      | prod => exact ⟨he.made, hn⟩
      | _ => simp [Spe.isLeaf, Spe.leafEnv] at hw
    exact C22_positive_partial hc ⟨hs, hE, ⟨ha, hsym, hr⟩, Or.inr hk⟩ h

omit hc hl

/-! ## Non-vacuity -/

/-- `Z` is two to the power `2*X`, and `W` is `1 - 3*Z`. -/
noncomputable def slabEnv : Env := [("X", .id "X"), ("Z", .exp (.poly (.id "X") [0, 2]) 2), ("W", .poly (.id "Z") [1, -3])]

/-- A mixture of a uniform variable and the number one, both with the derived variables. -/
noncomputable def slab : Spe := .sum [.real .cont "X" d0 unitIvl false slabEnv, .atomic "X" 1 slabEnv] [1 / 2, 1 / 2]

/-- `(2 < Z) & (2*W < 0)`. -/
noncomputable def slabEv : Ev := .and [.ivl (.id "Z") ⟨((2 : ℝ) : EReal), ⊤, true, true⟩, .ivl (.poly (.id "W") [0, 2]) ⟨⊥, ((0 : ℝ) : EReal), true, true⟩]

theorem slabEnv_ok : EnvOK ctx0 "X" slabEnv := by
  refine ⟨?_, ?_⟩
  · have h1 : EnvBuilt "X" ([("X", .id "X")] ++ [("Z", .exp (.poly (.id "X") [0, 2]) 2)]) :=
      .step .base (by simp [Env.keys]) (by simp [Tr.symbols, Env.keys]) (by simp [Tr.SymOk])
    exact .step (f := .poly (.id "Z") [1, -3]) (Y := "W") h1 (by simp [Env.keys]) (by simp [Tr.symbols, Env.keys]) (by simp [Tr.SymOk])
  · intro p hp
    simp only [slabEnv, List.mem_cons, List.not_mem_nil, or_false] at hp
    rcases hp with rfl | rfl | rfl
    · exact .id _
    · exact .exp (.poly (.id _) (by simp)) (by norm_num)
    · exact .poly (.id _) (by simp)

theorem slabEnv_curves : slabEnv.Curves := by
  intro p hp
  simp only [slabEnv, List.mem_cons, List.not_mem_nil, or_false] at hp
  rcases hp with rfl | rfl | rfl
  · exact ⟨_, .id⟩
  · exact ⟨_, .exp (.poly .id (by norm_num)) (by norm_num)⟩
  · exact ⟨_, .poly .id (by norm_num)⟩

theorem slabEnv_regular (x : ℝ) : EnvRegular "X" slabEnv x := by
  intro p hp
  simp only [slabEnv, List.mem_cons, List.not_mem_nil, or_false] at hp
  rcases hp with rfl | rfl | rfl <;> simp [Tr.Regular]

theorem slabEnv_extend (x : ℝ) : slabEnv.extend (baseAsg "X" (.num x)) "X" = some (.num x) ∧
    slabEnv.extend (baseAsg "X" (.num x)) "Z" = some (.num (2 ^ (2 * x))) ∧ slabEnv.extend (baseAsg "X" (.num x)) "W" = some (.num (1 - 3 * 2 ^ (2 * x))) := by
  refine ⟨?_, ?_, ?_⟩
  · simp [slabEnv, Env.extend, Tr.eval, baseAsg]
  · simp [slabEnv, Env.extend, Tr.eval, baseAsg, onNum, expVal, polyVal]
    try ring_nf
  · simp [slabEnv, Env.extend, Tr.eval, baseAsg, onNum, expVal, polyVal]
    try ring_nf

theorem slab_wf : slab.WF ctx0 (libOf muU) muU := by
  refine .sum (S := {"X", "Z", "W"}) ?_ (by simp) (by simp) (by simp) (by norm_num) ?_
  · intro s hs
    simp only [List.mem_cons, List.not_mem_nil, or_false] at hs
    rcases hs with rfl | rfl
    · refine .real (distOK_unif d0) slabEnv_ok unitIvl_wf (by intro h; cases h) ?_ (Filter.Eventually.of_forall slabEnv_regular)
      simp only [Bool.false_eq_true, if_false, unitIvl_reals]
      simp [muU, unif]
    · refine .atomic slabEnv_ok ?_ (slabEnv_regular 1)
      intro p hp
      simp only [slabEnv, List.mem_cons, List.not_mem_nil, or_false] at hp
      rcases hp with rfl | rfl | rfl
      · exact .id _
      · exact .exp (.poly (.id _))
      · exact .poly (.id _)
  · intro s hs
    simp only [List.mem_cons, List.not_mem_nil, or_false] at hs
    rcases hs with rfl | rfl <;> simp [Spe.symbols, slabEnv]

theorem slabEv_curved (Q : String → EReal → Prop) (hQ : ∀ k x, k = "Z" ∨ k = "W" → Q k x) : slabEv.Curved Q (fun k => k = "Z" ∨ k = "W") := by
  refine .and (by simp) ?_
  intro e he
  simp only [List.mem_cons, List.not_mem_nil, or_false] at he
  rcases he with rfl | rfl
  · refine .curve (k := "Z") (.inl rfl) (fun x => hQ _ x (.inl rfl)) (.ivl .id ⟨EReal.coe_lt_top _, by simp, by simp⟩) (.inl ⟨fun _ => some (.num 3), ?_⟩)
    rw [Ev.holds_ivl]
    refine ⟨3, by simp [Tr.eval], ?_⟩
    simp only [Ivl.Mem, if_true]
    exact ⟨by exact_mod_cast (by norm_num : (2 : ℝ) < 3), EReal.coe_lt_top _⟩
  · refine .curve (k := "W") (.inr rfl) (fun x => hQ _ x (.inr rfl)) (.ivl (.poly .id (by norm_num)) ⟨EReal.bot_lt_coe _, by simp, by simp⟩) (.inl ⟨fun _ => some (.num (-1)), ?_⟩)
    rw [Ev.holds_ivl]
    refine ⟨-2, by simp [Tr.eval, onNum, polyVal], ?_⟩
    simp only [Ivl.Mem, if_true]
    exact ⟨EReal.bot_lt_coe _, by exact_mod_cast (by norm_num : (-2 : ℝ) < 0)⟩

theorem slabEv_symbols : slabEv.symbols = {"Z", "W"} := by
  simp [slabEv, Ev.symbols, Ev.symbolsL, Tr.symbols]

theorem slabEv_mass : 0 < slab.den muU {ω | slabEv.holds ω} := by
  have h : slabEnv.extend (baseAsg "X" (.num 1)) ∈ {ω | slabEv.holds ω} := by
    obtain ⟨-, hz, hw⟩ := slabEnv_extend 1
    simp only [Set.mem_setOf_eq, slabEv, Ev.holds_and, List.mem_cons, List.not_mem_nil, or_false, forall_eq_or_imp, forall_eq, Ev.holds_ivl]
    refine ⟨⟨_, by simp only [Tr.eval]; exact hz, ?_⟩, ⟨_, by simp only [Tr.eval, hw, onNum]; rfl, ?_⟩⟩
    · simp only [Ivl.Mem, if_true]
      exact ⟨by exact_mod_cast (by norm_num : (2 : ℝ) < 2 ^ (2 * 1 : ℝ)), EReal.coe_lt_top _⟩
    · simp only [Ivl.Mem, if_true]
      refine ⟨EReal.bot_lt_coe _, ?_⟩
      rw [EReal.coe_lt_coe_iff]
      norm_num [polyVal]
  simp only [slab, Spe.den, Spe.denL, mixture_cons]
  rw [Measure.add_apply, Measure.add_apply, Measure.smul_apply, Measure.smul_apply]
  refine lt_of_lt_of_le ?_ le_add_self
  refine lt_of_lt_of_le ?_ (le_self_add (a := _))
  have hd : 1 ≤ (Measure.dirac (slabEnv.extend (baseAsg "X" (.num 1)))) {ω : Asg | slabEv.holds ω} := Measure.dirac_apply_of_mem h ▸ le_refl _
  refine lt_of_lt_of_le ?_ (mul_le_mul_right hd _)
  simp

/-- The hypotheses are met by the mixture, which is not a product or a mixture of products. -/
example : ctx0.Correct ∧ ctx0.Linear ∧ slab.WF ctx0 (libOf muU) muU ∧ slab.isLeaf = false ∧ slabEv.Curved (fun _ _ => True) (fun k => k = "Z" ∨ k = "W") ∧
    slabEv.Curved slab.Whole (fun k => k = "Z" ∨ k = "W") ∧ slabEv.IsClause ∧ slab.Leaves (Spe.CurvyLeaf (fun k => k = "Z" ∨ k = "W") slabEv.symbols) ∧
    slab.Leaves (Spe.CurvyContLeaf (fun k => k = "Z" ∨ k = "W") slabEv.symbols) ∧ slabEv.symbols ⊆ slab.symbols ∧ slabEv.NomFree slab.atomSyms ∧
    (∀ᵐ ω ∂(slab.den muU), slabEv.Regular ω) ∧ (∀ᵐ ω ∂(slab.den muU), slabEv.Suits ω) ∧ 0 < slab.den muU {ω | slabEv.holds ω} ∧
    slab.Ready (fun _ => slabEnv) := by
  have hsym : slabEv.symbols ⊆ slab.symbols := by
    rw [slabEv_symbols]; simp [slab, slabEnv, Spe.symbols, Spe.symbolsL, Finset.insert_subset_iff]
  have hcur : slabEnv.Curvy (fun k => k = "Z" ∨ k = "W") slabEv.symbols "X" := by
    refine .inr ⟨slabEnv_curves, ?_⟩
    intro k hk _
    rw [slabEv_symbols] at hk
    simpa using hk
  refine ⟨ctx0_correct, ctx0_linear, slab_wf, rfl, slabEv_curved _ (by simp), slabEv_curved _ ?_, ⟨by simp, by simp [Ev.IsLit]⟩, .sum ?_, .sum ?_, hsym, ?_,
    Filter.Eventually.of_forall ?_, ?_, slabEv_mass, .sum ?_ (by simp)⟩
  · intro k x hk
    refine .inl (.sum ?_)
    intro s hs
    simp only [List.mem_cons, List.not_mem_nil, or_false] at hs
    rcases hs with rfl | rfl
    · exact .real (by simp)
    · exact .atomic
  · intro s hs
    simp only [List.mem_cons, List.not_mem_nil, or_false] at hs
    rcases hs with rfl | rfl
    · exact .leaf rfl hcur
    · exact .leaf rfl hcur
  · intro s hs
    simp only [List.mem_cons, List.not_mem_nil, or_false] at hs
    rcases hs with rfl | rfl
    · exact .leaf rfl ⟨hcur, by simp⟩
    · exact .leaf rfl hcur
  · simp [slabEv, Ev.NomFree, Ev.NomFreeL]
  · intro ω; simp [slabEv, Ev.Regular, Ev.RegularL, Tr.Regular]
  · have hkind : ∀ x : ℝ, ∀ p ∈ slabEnv, HasKind true (slabEnv.extend (baseAsg "X" (.num x)) p.1) := by
      intro x p hp
      obtain ⟨h1, h2, h3⟩ := slabEnv_extend x
      simp only [slabEnv, List.mem_cons, List.not_mem_nil, or_false] at hp
      rcases hp with rfl | rfl | rfl
      · exact ⟨_, h1⟩
      · exact ⟨_, h2⟩
      · exact ⟨_, h3⟩
    refine suits_of_kinded (K := fun _ => true) slab_wf (.sum ?_) hsym ?_
    · intro s hs
      simp only [List.mem_cons, List.not_mem_nil, or_false] at hs
      rcases hs with rfl | rfl
      · exact .real (Filter.Eventually.of_forall (fun x => hkind x))
      · exact .atomic (hkind 1)
    · intro ω h
      rw [slabEv_symbols] at h
      refine ⟨?_, ?_, trivial⟩
      · intro s hs
        simp only [Tr.symbols, Finset.mem_singleton] at hs
        subst hs; exact h "Z" (by simp)
      · intro s hs
        simp only [Tr.symbols, Finset.mem_singleton] at hs
        subst hs; exact h "W" (by simp)
  · intro s hs
    simp only [List.mem_cons, List.not_mem_nil, or_false] at hs
    rcases hs with rfl | rfl
    · exact .real rfl
    · exact .atomic

/-- The hypotheses of the theorems about leaves are met by the uniform variable with derived variables. -/
example : slabEv.AndOf Ev.AnyLit ∧ (Spe.atomic "X" 1 slabEnv).CanAsk ctx0 slabEv ∧ (Spe.real .cont "X" d0 unitIvl false slabEnv).CanAsk ctx0 slabEv ∧
    slabEv.symbols ⊆ (Spe.real .cont "X" d0 unitIvl false slabEnv).symbols := by
  have hm : slabEv.MadeG true ctx0 := by
    refine .and (by simp) ?_
    intro e he
    simp only [List.mem_cons, List.not_mem_nil, or_false] at he
    rcases he with rfl | rfl
    · exact .ivl (.id _) ⟨EReal.coe_lt_top _, by simp, by simp⟩
    · exact .ivl (.poly (.id _) (by simp)) ⟨EReal.bot_lt_coe _, by simp, by simp⟩
  refine ⟨.and (by simp) ?_, ⟨hm, .and ?_⟩, hm, by rw [slabEv_symbols]; simp [slabEnv, Spe.symbols, Finset.insert_subset_iff]⟩
  · intro e he
    simp only [List.mem_cons, List.not_mem_nil, or_false] at he
    rcases he with rfl | rfl
    · exact ⟨"Z", .ivl .id ⟨EReal.coe_lt_top _, by simp, by simp⟩⟩
    · exact ⟨"W", .ivl (.poly .id (by norm_num)) ⟨EReal.bot_lt_coe _, by simp, by simp⟩⟩
  · intro e he
    simp only [List.mem_cons, List.not_mem_nil, or_false] at he
    rcases he with rfl | rfl
    · exact .ivl (.id _)
    · exact .ivl (.poly (.id _))

end Sppl
