import Verif.Dnf.CurveLemmas
import Verif.Spe.TotCondLemmas
import Verif.Spe.DerivSpec

set_option linter.all false

/-!
# Substitution of derived variables in comparisons (helper lemmas)
-/

namespace Sppl
open Classical

variable {c : Ctx}

/-! ## A bound on the depth that does not depend on the set -/

theorem Tr.Chain.invertU (hc : c.Correct) (hl : c.Linear) {k : String} {t : Tr} (h : t.Chain k) :
    ∃ N, ∀ V : SSet EReal, V.Flat → ∃ S, S.Flat ∧ t.invert c N V = .ok S := by
  have go : ∀ {t j}, t.Unary → StepOK c t j → (∃ N, ∀ V : SSet EReal, V.Flat → ∃ S, S.Flat ∧ t.sub.invert c N V = .ok S) →
      ∃ N, ∀ V : SSet EReal, V.Flat → ∃ S, S.Flat ∧ t.invert c N V = .ok S := by
    rintro t j hu ho ⟨N, ih⟩
    refine ⟨N + 1, fun V hV => ?_⟩
    rcases Tr.step hu ho hV with h | ⟨V2, h1, h2⟩
    · exact ⟨.empty, .empty, h N⟩
    · obtain ⟨S, hS, h4⟩ := ih V2 h1
      exact ⟨S, hS, by rw [h2]; exact h4⟩
  induction h with
  | id =>
    refine ⟨1, fun V hV => ?_⟩
    obtain ⟨r, h1, h2⟩ := extReals_rng c
    obtain ⟨V1, h3, h4, -⟩ := rng_and_flat c.σ h2 SSet.wf_reals hV
    refine ⟨V1, h4, ?_⟩
    simp only [Tr.invert, Tr.range, h1, bind, Except.bind, h3]
    cases h4 <;> rfl
  | @radical t n ht hn ih => exact go (t := .radical t n) trivial (stepOK_radical c t hn) ih
  | @exp t b ht hb ih => exact go (t := .exp t b) trivial (stepOK_exp c t hb) ih
  | @log t b ht hb ih => exact go (t := .log t b) trivial (stepOK_log c t hb) ih
  | @poly t p q ht hq ih => exact go (t := .poly t [p, q]) trivial (stepOK_poly hc hl t hq) ih

/-- A comparison of the expression `t`. -/
theorem chainLit_invU (hc : c.Correct) (hl : c.Linear) {k : String} {t : Tr} (ht : t.Chain k) :
    ∃ N, ∀ n, N ≤ n → ∀ e : Ev, e.ChainLit k → e.basic? = some t → ∃ S, S.Flat ∧ Ev.invert c n e (.pc (.fin {1})) = .ok S := by
  obtain ⟨N, hN⟩ := ht.invertU hc hl
  have one : ∀ e : Ev, e.ChainLit k → e.basic? = some t → ∃ S, S.Flat ∧ Ev.invert c (N + 1) e (.pc (.fin {1})) = .ok S := by
    intro e he hb
    obtain ⟨t', V, -, h⟩ := he.of
    have ht' : t' = t := by cases h <;> (simp only [Ev.basic?, Option.some.injEq] at hb; exact hb)
    subst ht'
    obtain ⟨S, hS, h1⟩ := hN V h.flat
    obtain ⟨xs, h4, h5⟩ := iterUnion_one (c := c) (y := 1) (f := fun y => Ev.finvReal c V y) (X := V) (by simp [Ev.finvReal]) (flat_or_self h.flat _)
    refine ⟨S, hS, ?_⟩
    cases h with
    | ivl hi =>
      rw [Ev.invert]
      simp only [bool_and_one, bind, Except.bind, Ev.invertFinite, h4, h5]
      exact h1
    | one =>
      rw [Ev.invert]
      simp only [bool_and_one, bind, Except.bind, Ev.invertFinite, optFin, h4, h5]
      exact h1
    | empty =>
      rw [Ev.invert]
      simp only [bool_and_one, bind, Except.bind, Ev.invertFinite, optFin, h4, h5]
      exact h1
  refine ⟨N + 1, fun n hn e he hb => ?_⟩
  obtain ⟨S, hS, h⟩ := one e he hb
  exact ⟨S, hS, Ev.invert_le' _ _ e hn _ _ h⟩

theorem Ev.AndOf.mono {P P' : Ev → Prop} (h : ∀ e, P e → P' e) {e : Ev} (he : e.AndOf P) : e.AndOf P' := by
  cases he with
  | lit he => exact .lit (h _ he)
  | and hne he => exact .and hne (fun e' h' => h _ (he e' h'))

theorem chainAnd_iff {k : String} {e : Ev} : e.ChainAnd k ↔ e.AndOf (fun l => l.ChainLit k) := by
  constructor
  · intro h; cases h with
    | lit h => exact .lit h
    | and h1 h2 => exact .and h1 h2
  · intro h; cases h with
    | lit h => exact .lit h
    | and h1 h2 => exact .and h1 h2

/-- Comparisons of finitely many expressions, and conjunctions of them. -/
theorem chainAnd_solveU (hc : c.Correct) (hl : c.Linear) {X : String} (ts : List Tr) :
    ∃ N, ∀ n, N ≤ n → ∀ e : Ev, e.AndOf (fun l => l.ChainLit X ∧ ∃ t ∈ ts, l.basic? = some t) → ∃ S, S.Flat ∧ e.solve c n = .ok S := by
  have hN : ∃ N, ∀ n, N ≤ n → ∀ l : Ev, l.ChainLit X → (∃ t ∈ ts, l.basic? = some t) → ∃ S, S.Flat ∧ Ev.invert c n l (.pc (.fin {1})) = .ok S := by
    induction ts with
    | nil => exact ⟨0, by simp⟩
    | cons t ts ih =>
      obtain ⟨N, ih⟩ := ih
      by_cases ht : t.Chain X
      · obtain ⟨M, hM⟩ := chainLit_invU hc hl ht
        refine ⟨max N M, fun n hn l h1 h2 => ?_⟩
        obtain ⟨t', ht', hb⟩ := h2
        rcases List.mem_cons.1 ht' with rfl | ht'
        · exact hM n (le_trans (le_max_right _ _) hn) l h1 hb
        · exact ih n (le_trans (le_max_left _ _) hn) l h1 ⟨t', ht', hb⟩
      · refine ⟨N, fun n hn l h1 h2 => ?_⟩
        obtain ⟨t', ht', hb⟩ := h2
        rcases List.mem_cons.1 ht' with rfl | ht'
        · obtain ⟨t'', g1, g2, -⟩ := h1.flat
          rw [hb] at g2; cases g2; exact absurd g1 ht
        · exact ih n hn l h1 ⟨t', ht', hb⟩
  obtain ⟨N, hN⟩ := hN
  have inv : ∀ n, N + 1 ≤ n → ∀ e : Ev, e.AndOf (fun l => l.ChainLit X ∧ ∃ t ∈ ts, l.basic? = some t) → ∃ S, S.Flat ∧ Ev.invert c n e (.pc (.fin {1})) = .ok S := by
    intro n hn e he
    cases he with
    | lit h => exact hN n (by omega) e h.1 h.2
    | @and es hne h =>
      obtain ⟨m, rfl⟩ : ∃ m, n = m + 1 := ⟨n - 1, by omega⟩
      obtain ⟨xs, h1, h2, h3⟩ := mapM_total (f := fun e => Ev.invert c m e (.pc (.fin {1}))) (P := SSet.Flat) (l := es) (fun e he => by
        obtain ⟨S, hS, h'⟩ := hN m (by omega) e (h e he).1 (h e he).2
        exact ⟨S, h', hS⟩)
      have hx : xs ≠ [] := by intro h; rw [h] at h2; exact hne (List.length_eq_zero_iff.1 h2.symm)
      obtain ⟨r, h4, h5⟩ := reduceM_total (P := SSet.Flat) (fun a b ha hb => flat_and c.σ ha hb) hx h3
      refine ⟨r, h5, ?_⟩
      rw [Ev.invert]
      simp only [bool_and_one, bind, Except.bind, Ev.invertFinite, h1]
      exact h4
  refine ⟨N + 1, fun n hn e he => ?_⟩
  obtain ⟨S, hS, h⟩ := inv n hn e he
  have hca : e.ChainAnd X := chainAnd_iff.2 (he.mono (fun _ h => h.1))
  have hsym := hca.symbols
  have base : ∀ k : String, e.basic? = some (.id k) → ∃ S, S.Flat ∧ e.solve c n = .ok S := by
    intro k hk
    refine ⟨e.values, ?_, solve_lit hk n⟩
    cases hca with
    | lit h => obtain ⟨t, -, -, h⟩ := h.flat; exact h
    | and => simp [Ev.basic?] at hk
  unfold Ev.solve
  split
  · exact base _ rfl
  · exact base _ rfl
  · exact base _ rfl
  · rw [if_neg (by simp [hsym])]; exact ⟨S, hS, h⟩

/-! ## Substitution -/

theorem Env.Curves.get {env : Env} (h : env.Curves) (s : String) : (env.get s).Curve := by
  unfold Env.get
  cases hl : env.lookup s with
  | none => exact ⟨s, .id⟩
  | some t =>
    obtain ⟨l1, l2, h1, -⟩ := List.lookup_eq_some_iff.1 hl
    exact h (s, t) (by rw [h1]; simp)

theorem Tr.Chain.subs_same {env : Env} {k : String} {t : Tr} (ht : t.Chain k) (hk : env.get k = .id k) (n : ℕ) : t.subs c n env = .ok t := by
  have hno : ∀ {t : Tr}, t.Chain k → ¬ exprInEnv t.symbols env := by
    rintro t ht ⟨s, hs, hs'⟩
    rw [ht.symbols, Finset.mem_singleton] at hs
    subst hs; exact hs' hk
  cases ht with
  | id => rw [Tr.subs, hk]
  | radical h _ => rw [Tr.subs, if_pos (hno h)]
  | exp h _ => rw [Tr.subs, if_pos (hno h)]
  | log h _ => rw [Tr.subs, if_pos (hno h)]
  | poly h _ => rw [Tr.subs, if_pos (hno h)]

theorem Tr.Chain.subs {env : Env} (he : env.Curves) {k : String} {t : Tr} (ht : t.Chain k) : ∃ t', t'.Curve ∧ ∀ n, t.subs c n env = .ok t' := by
  by_cases hk : env.get k = .id k
  · exact ⟨t, ⟨k, ht⟩, ht.subs_same hk⟩
  · have hyes : ∀ {t : Tr}, t.Chain k → exprInEnv t.symbols env := by
      intro t ht
      exact ⟨k, by rw [ht.symbols]; simp, hk⟩
    induction ht with
    | id => exact ⟨env.get k, he.get k, fun n => by rw [Tr.subs]⟩
    | @radical t d h hd ih =>
      obtain ⟨t', ⟨k', h1⟩, h2⟩ := ih
      exact ⟨_, ⟨k', .radical h1 hd⟩, fun n => by rw [Tr.subs, if_neg (not_not.2 (hyes h)), h2 n]; rfl⟩
    | @exp t d h hd ih =>
      obtain ⟨t', ⟨k', h1⟩, h2⟩ := ih
      exact ⟨_, ⟨k', .exp h1 hd⟩, fun n => by rw [Tr.subs, if_neg (not_not.2 (hyes h)), h2 n]; rfl⟩
    | @log t d h hd ih =>
      obtain ⟨t', ⟨k', h1⟩, h2⟩ := ih
      exact ⟨_, ⟨k', .log h1 hd⟩, fun n => by rw [Tr.subs, if_neg (not_not.2 (hyes h)), h2 n]; rfl⟩
    | @poly t p q h hd ih =>
      obtain ⟨t', ⟨k', h1⟩, h2⟩ := ih
      exact ⟨_, ⟨k', .poly h1 hd⟩, fun n => by rw [Tr.subs, if_neg (not_not.2 (hyes h)), h2 n]; rfl⟩

theorem Tr.Chain.subs_symbols {env : Env} (he : env.Curves) {k : String} {t : Tr} (ht : t.Chain k) : ∀ (t' : Tr), t.subs c 0 env = .ok t' → t'.symbols = (env.get k).symbols := by
  by_cases hk : env.get k = .id k
  · intro t' h
    rw [ht.subs_same hk 0] at h; cases h
    rw [hk, ht.symbols]; rfl
  · have hyes : ∀ {t : Tr}, t.Chain k → exprInEnv t.symbols env := by
      intro t ht
      exact ⟨k, by rw [ht.symbols]; simp, hk⟩
    induction ht with
    | id => intro t' h; rw [Tr.subs] at h; cases h; rfl
    | @radical t d h hd ih =>
      intro t' h'
      obtain ⟨t1, -, g⟩ := h.subs (c := c) he
      rw [Tr.subs, if_neg (not_not.2 (hyes h)), g 0] at h'; cases h'
      simp only [Tr.symbols]; exact ih _ (g 0)
    | @exp t d h hd ih =>
      intro t' h'
      obtain ⟨t1, -, g⟩ := h.subs (c := c) he
      rw [Tr.subs, if_neg (not_not.2 (hyes h)), g 0] at h'; cases h'
      simp only [Tr.symbols]; exact ih _ (g 0)
    | @log t d h hd ih =>
      intro t' h'
      obtain ⟨t1, -, g⟩ := h.subs (c := c) he
      rw [Tr.subs, if_neg (not_not.2 (hyes h)), g 0] at h'; cases h'
      simp only [Tr.symbols]; exact ih _ (g 0)
    | @poly t p q h hd ih =>
      intro t' h'
      obtain ⟨t1, -, g⟩ := h.subs (c := c) he
      rw [Tr.subs, if_neg (not_not.2 (hyes h)), g 0] at h'; cases h'
      simp only [Tr.symbols]; exact ih _ (g 0)

/-- The expression after one round of substitution. -/
noncomputable def Tr.csub (c : Ctx) (env : Env) (t : Tr) : Tr := ((t.subs c 0 env).toOption).getD t

theorem Tr.Curve.csub {env : Env} (he : env.Curves) {t : Tr} (ht : t.Curve) : (t.csub c env).Curve ∧ ∀ n, t.subs c n env = .ok (t.csub c env) := by
  obtain ⟨k, ht⟩ := ht
  obtain ⟨t', h1, h2⟩ := ht.subs (c := c) he
  have : t.csub c env = t' := by unfold Tr.csub; rw [h2 0]; rfl
  rw [this]; exact ⟨h1, h2⟩

theorem Tr.Curve.csub_same {env : Env} (he : env.Curves) {t : Tr} (ht : t.Curve) (h : ¬ exprInEnv t.symbols env) : t.csub c env = t := by
  obtain ⟨k, hk⟩ := ht
  have hg : env.get k = .id k := by
    by_contra hne
    exact h ⟨k, by rw [hk.symbols]; simp, hne⟩
  unfold Tr.csub
  rw [hk.subs_same hg 0]; rfl

/-- Replace the expression of a comparison. -/
def Ev.litMap (f : Tr → Tr) : Ev → Ev
  | .ivl t i => .ivl (f t) i
  | .fin t v => .fin (f t) v
  | .nom t v => .nom (f t) v
  | e => e

/-- Replace the expressions of a comparison or of a conjunction of comparisons. -/
def Ev.conjMap (f : Tr → Tr) : Ev → Ev
  | .and es => .and (es.map (Ev.litMap f))
  | e => e.litMap f

theorem Ev.AnyLit.map {l : Ev} (h : l.AnyLit) {f : Tr → Tr} (hf : ∀ t, t.Curve → (f t).Curve) :
    (l.litMap f).AnyLit ∧ ∃ t, t.Curve ∧ l.basic? = some t ∧ (l.litMap f).basic? = some (f t) ∧ l.symbols = t.symbols ∧ (l.litMap f).values = l.values := by
  obtain ⟨k, h⟩ := h
  cases h with
  | @ivl t i h hi =>
    obtain ⟨k', h'⟩ := hf t ⟨k, h⟩
    exact ⟨⟨k', .ivl h' hi⟩, t, ⟨k, h⟩, rfl, rfl, by rw [Ev.symbols], rfl⟩
  | @one t y h =>
    obtain ⟨k', h'⟩ := hf t ⟨k, h⟩
    exact ⟨⟨k', .one h'⟩, t, ⟨k, h⟩, rfl, rfl, by rw [Ev.symbols], rfl⟩
  | @empty t h =>
    obtain ⟨k', h'⟩ := hf t ⟨k, h⟩
    exact ⟨⟨k', .empty h'⟩, t, ⟨k, h⟩, rfl, rfl, by rw [Ev.symbols], rfl⟩

theorem Ev.AnyLit.subs {env : Env} (he : env.Curves) {l : Ev} (h : l.AnyLit) (n : ℕ) : l.subs c n env = .ok (l.litMap (Tr.csub c env)) := by
  obtain ⟨k, h⟩ := h
  have key : ∀ {t : Tr}, t.Chain k → ∀ (C : Tr → Ev), (if ¬ exprInEnv t.symbols env then .ok (C t) else do
      let t' ← t.subs c n env
      .ok (C t') : Res Ev) = .ok (C (t.csub c env)) := by
    intro t ht C
    by_cases hx : exprInEnv t.symbols env
    · rw [if_neg (not_not.2 hx), (Tr.Curve.csub he ⟨k, ht⟩).2 n]; rfl
    · rw [if_pos hx, Tr.Curve.csub_same he ⟨k, ht⟩ hx]
  cases h with
  | @ivl t i h hi => rw [Ev.subs]; exact key h (fun t => .ivl t i)
  | @one t y h => rw [Ev.subs]; exact key h (fun t => .fin t (some {y}))
  | @empty t h => rw [Ev.subs]; exact key h (fun t => .fin t none)

theorem Ev.AnyLit.litMap_same {l : Ev} {f : Tr → Tr} (hf : ∀ t, l.basic? = some t → f t = t) : l.litMap f = l := by
  cases l <;> simp_all [Ev.litMap, Ev.basic?]

theorem Ev.AnyLit.conjMap {l : Ev} (h : l.AnyLit) (f : Tr → Tr) : l.conjMap f = l.litMap f := by
  obtain ⟨k, h⟩ := h
  cases h <;> rfl

theorem Ev.AndOf.subs {env : Env} (he : env.Curves) {e : Ev} (h : e.AndOf Ev.AnyLit) (n : ℕ) : e.subs c n env = .ok (e.conjMap (Tr.csub c env)) := by
  cases h with
  | lit h => rw [h.conjMap]; exact h.subs he n
  | @and es hne h =>
    have hL : Ev.subsL c n env es = .ok (es.map (Ev.litMap (Tr.csub c env))) := by
      clear hne
      induction es with
      | nil => rfl
      | cons e es ih =>
        rw [Ev.subsL, (h e (by simp)).subs he n, ih (fun e he => h e (by simp [he]))]; rfl
    rw [Ev.subs]
    by_cases hx : exprInEnv (Ev.symbolsL es) env
    · rw [if_neg (not_not.2 hx), hL]; rfl
    · rw [if_pos hx]
      have : es.map (Ev.litMap (Tr.csub c env)) = es := by
        conv_rhs => rw [← List.map_id es]
        refine List.map_congr_left (fun l hl => ?_)
        refine Ev.AnyLit.litMap_same (fun t ht => ?_)
        obtain ⟨k, hk⟩ := h l hl
        obtain ⟨t', h1, h2, -⟩ := hk.flat
        rw [ht] at h2; cases h2
        refine Tr.Curve.csub_same he ⟨k, h1⟩ ?_
        rintro ⟨s, hs, hs'⟩
        exact hx ⟨s, (Ev.mem_symbolsL).2 ⟨l, hl, by rw [symbols_of_basic ht]; exact hs⟩, hs'⟩
      simp only [Ev.conjMap, this]

theorem Ev.AndOf.map {e : Ev} (h : e.AndOf Ev.AnyLit) {f : Tr → Tr} (hf : ∀ t, t.Curve → (f t).Curve) : (e.conjMap f).AndOf Ev.AnyLit := by
  cases h with
  | lit h => rw [h.conjMap]; exact .lit (h.map hf).1
  | @and es hne h =>
    refine .and (by simpa using hne) ?_
    intro l hl
    obtain ⟨l', hl', rfl⟩ := List.mem_map.1 hl
    exact ((h l' hl').map hf).1

theorem litMap_litMap (f g : Tr → Tr) (e : Ev) : (e.litMap f).litMap g = e.litMap (g ∘ f) := by cases e <;> rfl

theorem Ev.AndOf.map_map {e : Ev} (h : e.AndOf Ev.AnyLit) {f : Tr → Tr} (hf : ∀ t, t.Curve → (f t).Curve) (g : Tr → Tr) : (e.conjMap f).conjMap g = e.conjMap (g ∘ f) := by
  cases h with
  | lit h => rw [h.conjMap, h.conjMap, (h.map hf).1.conjMap, litMap_litMap]
  | @and es hne h => simp [Ev.conjMap, litMap_litMap]

theorem csub_iter {env : Env} (he : env.Curves) (j : ℕ) : ∀ t : Tr, t.Curve → ((Tr.csub c env)^[j] t).Curve := by
  induction j with
  | zero => intro t h; exact h
  | succ j ih => intro t h; rw [Function.iterate_succ_apply]; exact ih _ (h.csub (c := c) he).1

/-- The loop of substitutions ends. -/
theorem AndOf.substitute {X : String} {env : Env} (hb : EnvBuilt X env) (he : env.Curves) : ∀ n, env.length ≤ n → ∀ e : Ev, e.AndOf Ev.AnyLit → (∀ s ∈ e.symbols, s ∈ env.keys) →
    ∃ j, j ≤ env.length ∧ Ev.substitute c n env n e = .ok (e.conjMap ((Tr.csub c env)^[j])) := by
  obtain ⟨ρ, h1, h2, h3, h4⟩ := hb.rank
  have key : ∀ n m k : ℕ, k ≤ m → ∀ e : Ev, e.AndOf Ev.AnyLit → (∀ s ∈ e.symbols, s ∈ env.keys) → (∀ s ∈ e.symbols, ρ s ≤ k) →
      ∃ j, j ≤ k ∧ Ev.substitute c n env m e = .ok (e.conjMap ((Tr.csub c env)^[j])) := by
    intro n m k
    have same : ∀ e : Ev, e.AndOf Ev.AnyLit → e.conjMap ((Tr.csub c env)^[0]) = e := by
      intro e h
      cases h with
      | lit h => rw [h.conjMap]; exact Ev.AnyLit.litMap_same (fun _ _ => rfl)
      | @and es _ _ =>
        simp only [Ev.conjMap]
        congr 1
        conv_rhs => rw [← List.map_id es]
        exact List.map_congr_left (fun l _ => Ev.AnyLit.litMap_same (fun _ _ => rfl))
    induction k generalizing m with
    | zero =>
      intro _ e ha hk hr
      have hx : ¬ exprInEnv e.symbols env := by
        rintro ⟨s, hs, hs'⟩
        have : s = X := h2 s (hk s hs) (by have := hr s hs; omega)
        subst this; exact hs' hb.get_base
      refine ⟨0, le_refl _, ?_⟩
      rw [same e ha]
      cases m <;> simp [Ev.substitute, hx]
    | succ k ih =>
      intro hm e ha hk hr
      obtain ⟨m, rfl⟩ : ∃ m', m = m' + 1 := ⟨m - 1, by omega⟩
      by_cases hx : exprInEnv e.symbols env
      · have hs := ha.subs (c := c) he n
        have hf := fun t ht => (Tr.Curve.csub (c := c) he (t := t) ht).1
        -- the symbols of the result
        have hsy : ∀ s ∈ (e.conjMap (Tr.csub c env)).symbols, ∃ s' ∈ e.symbols, s ∈ (env.get s').symbols := by
          have one : ∀ l : Ev, l.AnyLit → ∀ s ∈ (l.litMap (Tr.csub c env)).symbols, ∃ s' ∈ l.symbols, s ∈ (env.get s').symbols := by
            intro l hl s hs
            obtain ⟨-, t, ⟨k', ht⟩, t1, t2, t3, -⟩ := hl.map hf
            rw [symbols_of_basic t2] at hs
            rw [t3]
            have hts := (Tr.Curve.csub (c := c) he ⟨k', ht⟩).2 0
            exact ⟨k', by rw [ht.symbols]; simp, by
              have := Tr.Chain.subs_symbols (c := c) he ht _ hts
              rw [this] at hs; exact hs⟩
          intro s hs
          cases ha with
          | lit ha => rw [ha.conjMap] at hs; exact one _ ha s hs
          | @and es hne ha =>
            rw [Ev.conjMap, Ev.symbols, Ev.mem_symbolsL] at hs
            obtain ⟨l, hl, hs⟩ := hs
            obtain ⟨l', hl', rfl⟩ := List.mem_map.1 hl
            obtain ⟨s', a, b⟩ := one l' (ha l' hl') s hs
            exact ⟨s', by rw [Ev.symbols, Ev.mem_symbolsL]; exact ⟨l', hl', a⟩, b⟩
        obtain ⟨j, hj, h⟩ := ih m (by omega) (e.conjMap (Tr.csub c env)) (ha.map hf)
          (fun s hs => by obtain ⟨s', a, b⟩ := hsy s hs; exact (h3 s' (hk s' a) s b).1)
          (fun s hs => by
            obtain ⟨s', a, b⟩ := hsy s hs
            have e1 := (h3 s' (hk s' a) s b).2
            have e2 := hr s' a
            omega)
        refine ⟨j + 1, by omega, ?_⟩
        rw [Ev.substitute, if_pos hx]
        simp only [hs, bind, Except.bind, h]
        rw [ha.map_map hf, ← Function.iterate_succ]
      · refine ⟨0, by omega, ?_⟩
        rw [same e ha, Ev.substitute, if_neg hx]
  intro n hn e ha hk
  exact key n n env.length hn e ha hk (fun s hs => (h1 s (hk s hs)).le)

end Sppl
