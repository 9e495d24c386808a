import Verif.Spe.DerivSubst
import Verif.Dnf.Curve2Lemmas

set_option linter.all false

/-!
# Leaves answer comparisons of their derived variables (helper lemmas)
-/

namespace Sppl
open Classical MeasureTheory
open scoped ENNReal ProbabilityTheory

variable {c : Ctx} {L : Lib} {μ : Dist → Measure ℝ}

theorem leafCurve_solve (hc : c.Correct) (hl : c.Linear) {X : String} {env : Env} (hb : EnvBuilt X env) (he : env.Curves) (ts : List Tr) :
    ∃ N, ∀ n, N ≤ n → ∀ e : Ev, e.AndOf (fun l => l.AnyLit ∧ ∃ t ∈ ts, l.basic? = some t) → (∀ s ∈ e.symbols, s ∈ env.keys) →
      ∃ r S, leafSubst c n X env e = .ok r ∧ r.solve c n = .ok S ∧ S.Flat := by
  obtain ⟨N, hN⟩ := chainAnd_solveU (c := c) (X := X) hc hl (ts.flatMap (fun t => (List.range (env.length + 1)).map (fun j => (Tr.csub c env)^[j] t)))
  refine ⟨max N env.length, fun n hn e ha hk => ?_⟩
  have ha' : e.AndOf Ev.AnyLit := ha.mono (fun _ h => h.1)
  obtain ⟨j, hj, hs⟩ := AndOf.substitute (c := c) hb he n (le_trans (le_max_right _ _) hn) e ha' hk
  obtain ⟨hsub, -⟩ := hb.substitute n e hk _ hs
  have hf : ∀ t : Tr, t.Curve → ((Tr.csub c env)^[j] t).Curve := csub_iter he j
  have one : ∀ l : Ev, (l.AnyLit ∧ ∃ t ∈ ts, l.basic? = some t) → (l.litMap ((Tr.csub c env)^[j])).symbols ⊆ {X} →
      (l.litMap ((Tr.csub c env)^[j])).ChainLit X ∧ ∃ t ∈ ts.flatMap (fun t => (List.range (env.length + 1)).map (fun j => (Tr.csub c env)^[j] t)), (l.litMap ((Tr.csub c env)^[j])).basic? = some t := by
    rintro l ⟨hl, t, ht, hbt⟩ hx
    obtain ⟨⟨k, h1⟩, t', h2, h3, h4, -⟩ := hl.map hf
    rw [hbt] at h3; cases h3
    have hkX : k = X := by
      rw [h1.symbols] at hx
      simpa using hx
    subst hkX
    exact ⟨h1, _, List.mem_flatMap.2 ⟨t, ht, List.mem_map.2 ⟨j, by simp; omega, rfl⟩⟩, h4⟩
  have hr : (e.conjMap ((Tr.csub c env)^[j])).AndOf (fun l => l.ChainLit X ∧ ∃ t ∈ ts.flatMap (fun t => (List.range (env.length + 1)).map (fun j => (Tr.csub c env)^[j] t)), l.basic? = some t) := by
    cases ha with
    | lit ha =>
      rw [ha.1.conjMap] at hsub ⊢
      exact .lit (one _ ha hsub)
    | @and es hne ha =>
      refine .and (by simpa using hne) ?_
      intro l hl
      obtain ⟨l', hl', rfl⟩ := List.mem_map.1 hl
      refine one l' (ha l' hl') ?_
      intro s hs
      exact hsub (by rw [Ev.conjMap, Ev.symbols, Ev.mem_symbolsL]; exact ⟨_, hl, hs⟩)
  obtain ⟨S, hS, hsol⟩ := hN n (le_trans (le_max_left _ _) hn) _ hr
  refine ⟨_, S, ?_, hsol, hS⟩
  have hsy : (e.conjMap ((Tr.csub c env)^[j])).symbols = {X} := (chainAnd_iff.2 (hr.mono (fun _ h => h.1))).symbols
  simp only [leafSubst, hs, bind, Except.bind]
  rw [if_pos (by exact hk), if_pos hsy]

theorem litOf_basic (X : String) {S : SSet EReal} (hS : S.Flat) : (litOf X S).basic? = some (.id X) ∧ (litOf X S).Valid ∧ (litOf X S).values = S := by
  cases hS with
  | empty => exact ⟨rfl, .fin (by simp), rfl⟩
  | ivl hi => exact ⟨rfl, .ivl hi, rfl⟩
  | @one y => exact ⟨rfl, .fin (by intro s hs; cases hs; exact ⟨y, by simp⟩), rfl⟩

theorem litOf_nomFree (X : String) {S : SSet EReal} (hS : S.Flat) (A : Finset String) : (litOf X S).NomFree A := by
  cases hS <;> simp [litOf, Ev.NomFree]

/-- The answer of a leaf is the answer to `X in S`, where `S` solves the event. -/
theorem leafProb_curve {s : Spe} {X : String} {env : Env} (hs : s.WF c L μ) (hl : s.leafEnv = some (X, env)) {n : ℕ} {e r : Ev} {S : SSet EReal}
    (h1 : leafSubst c n X env e = .ok r) (h2 : r.solve c n = .ok S) (hS : S.Flat) : leafProb c L n s e = leafProb c L n s (litOf X S) ∧ ∃ p, leafProb c L n s e = .ok p := by
  obtain ⟨a1, a2, a3⟩ := litOf_basic X hS
  have heq : leafProb c L n s e = leafProb c L n s (litOf X S) := by
    simp only [leafProb, hl, h1, h2, leafSubst_base (leafEnv_built hs hl) (symbols_lit a1) n, solve_lit a1 n, bind, Except.bind, a3]
  obtain ⟨p, hp⟩ := leafProb_total hs hl a2 a1 (litOf_nomFree X hS _)
  exact ⟨heq, p, by rw [heq]; exact hp n⟩

theorem leafEnv_mem {s : Spe} {X : String} {env : Env} (hs : s.WF c L μ) (h : s.leafEnv = some (X, env)) : X ∈ s.symbols := by
  have hb := (leafEnv_built hs h).base_mem
  cases s with
  | real => simp only [Spe.leafEnv, Option.some.injEq, Prod.mk.injEq] at h; obtain ⟨rfl, rfl⟩ := h; simpa [Spe.symbols, Env.keys] using hb
  | atomic => simp only [Spe.leafEnv, Option.some.injEq, Prod.mk.injEq] at h; obtain ⟨rfl, rfl⟩ := h; simpa [Spe.symbols, Env.keys] using hb
  | nominal => simp only [Spe.leafEnv, Option.some.injEq, Prod.mk.injEq] at h; obtain ⟨rfl, rfl⟩ := h; simp [Spe.symbols]
  | sum => simp [Spe.leafEnv] at h
  | prod => simp [Spe.leafEnv] at h

theorem leafCond_curve (hc : c.Correct) {s : Spe} {X : String} {env : Env} (hs : s.WF c L μ) (hl : s.leafEnv = some (X, env)) {n : ℕ} {e r : Ev} {S : SSet EReal}
    (h1 : leafSubst c n X env e = .ok r) (h2 : r.solve c n = .ok S) (hS : S.Flat) (he : LeafEvOK c s e) (hr : ∀ᵐ ω ∂(s.den μ), e.Regular ω)
    (hw : ∀ x, s.Whole X x) (hm : (s.den μ) e.set ≠ 0) : ∃ s', leafCond c L n s e = .ok s' := by
  have hPr := hs.prob
  obtain ⟨a1, a2, a3⟩ := litOf_basic X hS
  have heq : leafCond c L n s e = leafCond c L n s (litOf X S) := by
    simp only [leafCond, hl, h1, h2, leafSubst_base (leafEnv_built hs hl) (symbols_lit a1) n, solve_lit a1 n, bind, Except.bind, a3]
  obtain ⟨hpe, p, hp⟩ := leafProb_curve (L := L) hs hl h1 h2 hS
  have hlit : LitFac [(X, litOf X S)] := by intro q hq; simp at hq; subst hq; exact a1
  have hXs : X ∈ s.symbols := leafEnv_mem hs hl
  have hF : FactorOK (· ∈ s.atomSyms) s.symbols [[(X, litOf X S)]] := by
    refine ⟨by simp, by simp, ?_, by simp [hXs]⟩
    intro m hm'
    rw [List.mem_singleton.1 hm']
    refine ⟨by simp, fun q hq => ?_⟩
    simp at hq; subst hq
    exact ⟨a2, .lit a1 a1, (nomFree_iff _).1 (litOf_nomFree X hS _)⟩
  have hfe : factorEvent c [[(X, litOf X S)]] = .ok (litOf X S) := by
    simp [factorEvent, reduceM, bind, Except.bind, pure, Except.pure]
  obtain ⟨g1, g2, g3⟩ := leafEvOK_factor (c := c) (by simp [Spe.isLeaf, hl]) hF hfe
  have hmass : (s.den μ) (litOf X S).set ≠ 0 := by
    rw [← real_ne_zero] at hm ⊢
    rw [← leafProb_ok hc hs he hr hp] at hm
    rw [hpe] at hp
    rw [← leafProb_ok hc hs g1 (Filter.Eventually.of_forall g2) hp]
    exact hm
  have hwi : (litOf X S).values.Within (s.Whole X) := by
    rw [a3]
    cases hS with
    | empty => trivial
    | ivl hi => exact ⟨fun _ => hw _, fun _ => hw _⟩
    | @one y =>
      intro x hx
      rw [Finset.mem_singleton.1 hx]
      have key : ∀ z : EReal, z = y → (∀ v : ℝ, (v : EReal) ≠ z) → False := by
        rintro z rfl hz
        apply hmass
        have : (litOf X (.pc (.fin {z}))).set = ∅ := by
          ext ω
          simp only [litOf, Ev.set, Set.mem_setOf_eq, Set.mem_empty_iff_false, iff_false]
          intro h
          have h0 : (Ev.fin (.id X) (some {z})).ChainLit X := .one .id
          obtain ⟨v, -, hv⟩ := (h0.holds rfl ω).1 h
          obtain ⟨w, hw1, hw2⟩ := hv
          simp at hw1 hw2; subst hw1; exact hz v hw2
        rw [this]; simp
      refine ⟨?_, ?_, hw y⟩
      · rintro rfl; exact key ⊥ rfl (fun v => EReal.coe_ne_bot v)
      · rintro rfl; exact key ⊤ rfl (fun v => EReal.coe_ne_top v)
  obtain ⟨s', h⟩ := leafCond_total (L := L) hc hs hl a2 a1 (litOf_nomFree X hS _) g1 (Filter.Eventually.of_forall g2) hwi hmass
  exact ⟨s', by rw [heq]; exact h n⟩

end Sppl
