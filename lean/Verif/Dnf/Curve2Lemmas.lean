import Verif.Dnf.CurveLemmas
import Verif.Dnf.TotalProps

set_option linter.all false

/-!
# `dnf_normalize` on comparisons of increasing and decreasing expressions returns (helper lemmas)
-/

namespace Sppl
open Classical

variable {Q : String → EReal → Prop} {T : String → Prop} {c : Ctx}

/-! ## Literals -/

/-- The two kinds of basic events. -/
def MixLit (Q : String → EReal → Prop) (T : String → Prop) (l : Ev) : Prop :=
  (∃ k, ¬ T k ∧ l.basic? = some (.id k) ∧ PlainLit Q l) ∨ ∃ k, T k ∧ (∀ x, Q k x) ∧ CurveLit k l

theorem Ev.ChainLit.valid {k : String} {e : Ev} (h : e.ChainLit k) : e.Valid := Ev.Made.valid (c := ctx0) _ h.made

theorem MixLit.valid {l : Ev} (h : MixLit Q T l) : l.Valid := by
  rcases h with ⟨k, -, -, h⟩ | ⟨k, -, -, h⟩
  · exact h.1
  · exact h.1.valid

theorem MixLit.symbol {l : Ev} (h : MixLit Q T l) : ∃ k, l.symbols = {k} ∧ (¬ T k → l.basic? = some (.id k) ∧ PlainLit Q l) ∧ (T k → (∀ x, Q k x) ∧ CurveLit k l) := by
  rcases h with ⟨k, h1, h2, h3⟩ | ⟨k, h1, h2, h3⟩
  · exact ⟨k, by rw [symbols_of_basic h2]; rfl, fun _ => ⟨h2, h3⟩, fun h => absurd h h1⟩
  · exact ⟨k, h3.1.symbols, fun h => absurd h1 h, fun _ => ⟨h2, h3⟩⟩

theorem Ev.Curved.all {e : Ev} (h : e.Curved Q T) : e.Valid ∧ e.All (MixLit Q T) := by
  induction h with
  | plain h1 h2 h3 =>
    obtain ⟨a, b⟩ := h3.all
    exact ⟨a, .lit h1 (.inl ⟨_, h2, h1, (Ev.all_lit h1).1 b⟩)⟩
  | curve h1 h2 h3 h4 =>
    obtain ⟨t, -, hb, -⟩ := h3.flat
    exact ⟨h3.valid, .lit hb (.inr ⟨_, h1, h2, h3, h4⟩)⟩
  | or hne _ ih => exact ⟨.or hne (fun e he => (ih e he).1), Ev.all_or.2 (fun e he => (ih e he).2)⟩
  | and hne _ ih => exact ⟨.and hne (fun e he => (ih e he).1), Ev.all_and.2 (fun e he => (ih e he).2)⟩

theorem mixLit_and : ∀ e f g : Ev, MixLit Q T e → MixLit Q T f → Ev.simplify (SSet.and c.σ) e f = .ok (some g) → MixLit Q T g := by
  intro e f g he hf h
  obtain ⟨t, r, a1, a2, -, a4, -⟩ := Ev.simplify_some h
  obtain ⟨k, b1, b2, b3⟩ := he.symbol
  obtain ⟨k', d1, d2, d3⟩ := hf.symbol
  rw [symbols_of_basic a1] at b1
  rw [symbols_of_basic a2] at d1
  have : k = k' := by rw [b1] at d1; simpa using d1
  subst this
  by_cases hT : T k
  · exact .inr ⟨k, hT, (b3 hT).1, curveLit_and e f g (b3 hT).2 (d3 hT).2 h⟩
  · refine .inl ⟨k, hT, ?_, plainLit_and e f g (b2 hT).2 (d2 hT).2 h⟩
    rw [a4, ← a1]; exact (b2 hT).1

/-! ## `dnf_factor` -/

theorem factorLit_sym {d e : Ev} {k : String} (hs : e.symbols = {k}) (hd : e.symbols ⊆ d.symbols) : factorLit (selfLookup d) e = .ok (k, e) := by
  have h1 : e.symbol1 = .ok k := by
    unfold Ev.symbol1
    rw [hs]; simp
  have h2 : selfLookup d k = some k := by
    unfold selfLookup
    rw [if_pos (hd (by simp [hs]))]
  unfold factorLit
  simp only [h1, h2, bind, Except.bind]

/-- The variables outside `T` have one basic event each. -/
def MixFac (T : String → Prop) (m : Clause String) : Prop := ∀ p ∈ m, ¬ T p.1 → p.2.basic? = some (.id p.1)

theorem addAnd_mix {k : String} {ev : Ev} {m m' : Clause String} (hm : MixFac T m) (he : ¬ T k → ev.basic? = some (.id k))
    (h : Clause.addAnd c k ev m = .ok m') : MixFac T m' := by
  rcases Clause.addAnd_ok h with ⟨h1, rfl⟩ | ⟨a, e', b, g, rfl, hg, rfl⟩
  · intro p hp
    rcases List.mem_append.1 hp with hp | hp
    · exact hm p hp
    · simp at hp; subst hp; exact he
  · intro p hp
    simp only [List.mem_append, List.mem_cons] at hp
    rcases hp with hp | rfl | hp
    · exact hm p (by simp [hp])
    · intro hT; exact land_same (hm (k, e') (by simp) hT) (he hT) hg
    · exact hm p (by simp [hp])

theorem factorLoop_mix {d : Ev} : ∀ {rest : List Ev} {m : Clause String}, (∀ p ∈ m, p.2.Valid) → MixFac T m → (∀ e ∈ rest, MixLit Q T e ∧ e.symbols ⊆ d.symbols) →
    ∃ m', factorLoop c (selfLookup d) m rest = .ok m' ∧ MixFac T m' := by
  intro rest
  induction rest with
  | nil => intro m _ h _; exact ⟨m, rfl, h⟩
  | cons e rest ih =>
    intro m hm hl hr
    obtain ⟨h1, h3⟩ := hr e (by simp)
    obtain ⟨k, hk, hk2, -⟩ := h1.symbol
    obtain ⟨m1, hm1, hm2⟩ := addAnd_total (c := c) (k := k) h1.valid hm
    obtain ⟨m', hm', hm''⟩ := ih hm2 (addAnd_mix hl (fun h => (hk2 h).1) hm1) (fun e he => hr e (by simp [he]))
    refine ⟨m', ?_, hm''⟩
    simp only [factorLoop, List.foldlM_cons, factorLit_sym hk h3, bind, Except.bind, hm1]
    simpa [factorLoop, bind, Except.bind] using hm'

theorem factorClause_mix {d e : Ev} (hcl : e.IsClause) (ha : e.All (MixLit Q T)) (hs : e.symbols ⊆ d.symbols) :
    ∃ m, factorClause c (selfLookup d) e = .ok m ∧ MixFac T m := by
  cases e with
  | or => exact False.elim hcl
  | and es =>
    simp only [factorClause]
    rw [if_pos (by
      simp only [List.all_eq_true]
      intro e he
      obtain ⟨t, ht⟩ := Ev.isLit_iff.1 (hcl.2 e he)
      simp [ht])]
    refine factorLoop_mix (Q := Q) (by simp) (by intro p hp; simp at hp) (fun e he => ?_)
    obtain ⟨t, ht⟩ := Ev.isLit_iff.1 (hcl.2 e he)
    exact ⟨(Ev.all_lit ht).1 (Ev.all_and.1 ha e he), Ev.symbols_all.2 (Ev.all_and.1 (Ev.symbols_all.1 hs) e he)⟩
  | ivl t i =>
    obtain ⟨k, hk, h2, -⟩ := ((Ev.all_lit rfl).1 ha).symbol
    simp only [factorClause, factorLit_sym hk hs, bind, Except.bind]
    exact ⟨_, rfl, by intro p hp; simp at hp; subst hp; exact fun h => (h2 h).1⟩
  | fin t i =>
    obtain ⟨k, hk, h2, -⟩ := ((Ev.all_lit rfl).1 ha).symbol
    simp only [factorClause, factorLit_sym hk hs, bind, Except.bind]
    exact ⟨_, rfl, by intro p hp; simp at hp; subst hp; exact fun h => (h2 h).1⟩
  | nom t i =>
    obtain ⟨k, hk, h2, -⟩ := ((Ev.all_lit rfl).1 ha).symbol
    simp only [factorClause, factorLit_sym hk hs, bind, Except.bind]
    exact ⟨_, rfl, by intro p hp; simp at hp; subst hp; exact fun h => (h2 h).1⟩

/-! ## Solving -/

/-- The basic event `k in S` for a set that is not a union. -/
noncomputable def litOf (k : String) : SSet EReal → Ev
  | .pc (.ivl i) => .ivl (.id k) i
  | .pc (.fin s) => .fin (.id k) (some s)
  | _ => .fin (.id k) none

theorem litOf_plain {k : String} (hk : ∀ x, Q k x) {S : SSet EReal} (hS : S.Flat) (hn : NoInf S) : (litOf k S).basic? = some (.id k) ∧ PlainLit Q (litOf k S) ∧ (litOf k S).values = S := by
  cases hS with
  | empty => exact ⟨rfl, ⟨.fin (by simp), k, rfl, trivial⟩, rfl⟩
  | ivl hi => exact ⟨rfl, ⟨.ivl hi, k, rfl, fun _ => hk _, fun _ => hk _⟩, rfl⟩
  | @one y =>
    refine ⟨rfl, ⟨.fin (by intro s hs; cases hs; exact ⟨y, by simp⟩), k, rfl, ?_⟩, rfl⟩
    intro x hx
    have := hn (.num x) ⟨x, rfl, hx⟩
    exact ⟨this.1, this.2, hk _⟩

theorem litOf_chain {k : String} {S : SSet EReal} (hS : S.Flat) : (litOf k S).ChainLit k := by
  cases hS with
  | empty => exact .empty .id
  | ivl hi => exact .ivl .id hi
  | one => exact .one .id

/-- Solving one clause. -/
theorem solveClause_mix (hc : c.Correct) (hl : c.Linear) {D : Finset String} {d e : Ev} (hv : e.Valid) (ha : e.All (MixLit Q T)) {m : Clause String}
    (h : factorClause c (selfLookup d) e = .ok m) (hf : MixFac T m) :
    ∃ N m', PlainClause Q d.symbols m' ∧ (∀ n, N ≤ n → solveClause c n m = .ok (m'.map (fun p => (p.1, p.2.values)))) ∧ ∀ p ∈ m', T p.1 → p.2.ChainLit p.1 := by
  obtain ⟨h1, h2, -⟩ := factorClause_ok mixLit_and hv ha h
  have hsym : ∀ p ∈ m, p.1 ∈ d.symbols ∧ p.2.All (fun l => l.symbols = {p.1}) := by
    intro p hp
    refine ⟨(h1.symbols hp).2, (h1.lk p hp).mono ?_⟩
    rintro l t - ⟨s, hs1, hs2⟩
    rw [hs1, (selfLookup_ok hs2).1]
  have one : ∀ p ∈ m, ∃ N l, l.basic? = some (.id p.1) ∧ PlainLit Q l ∧ (∀ n, N ≤ n → p.2.solve c n = .ok l.values) ∧ (T p.1 → l.ChainLit p.1) := by
    intro p hp
    have hall := (h1.allP p hp).and' (hsym p hp).2
    by_cases hT : T p.1
    · have hcur : p.2.All (CurveLit p.1) := hall.mono (by
        rintro l t - ⟨a, b⟩
        obtain ⟨k, d1, -, d3⟩ := a.symbol
        have : k = p.1 := by rw [d1] at b; simpa using b
        subst this
        exact (d3 hT).2)
      have hQ : ∀ x, Q p.1 x := by
        obtain ⟨h3, h4⟩ := IsClause.conjuncts (h1.clause p hp)
        obtain ⟨l, hl⟩ := List.exists_mem_of_ne_nil _ h3
        obtain ⟨t, ht⟩ := Ev.isLit_iff.1 (h4 l hl)
        have hml : l.All (fun l => MixLit Q T l ∧ l.symbols = {p.1}) := by
          have hcl := h1.clause p hp
          revert hall hl hcl
          cases p.2 with
          | and es => intro hall hl hcl; exact Ev.all_and.1 hall l hl
          | or => intro _ _ hcl; exact False.elim hcl
          | _ => intro hall hl _; simp [Ev.conjuncts] at hl; subst hl; exact hall
        obtain ⟨a, b⟩ := (Ev.all_lit ht).1 hml
        obtain ⟨k, d1, -, d3⟩ := a.symbol
        have : k = p.1 := by rw [d1] at b; simpa using b
        subst this
        exact (d3 hT).1
      obtain ⟨N, S, ⟨hS, hn⟩, hs⟩ := curve_solve hc hl (h1.clause p hp) hcur
      obtain ⟨a1, a2, a3⟩ := litOf_plain hQ hS hn
      exact ⟨N, litOf p.1 S, a1, a2, fun n hn => by rw [a3]; exact Ev.solve_le hn _ _ hs, fun _ => litOf_chain hS⟩
    · have hb := hf p hp hT
      obtain ⟨a, b⟩ := (Ev.all_lit hb).1 hall
      obtain ⟨k, d1, d2, -⟩ := a.symbol
      have : k = p.1 := by rw [d1] at b; simpa using b
      subst this
      exact ⟨0, p.2, hb, (d2 hT).2, fun n _ => solve_var hb, fun h => absurd h hT⟩
  have key : ∀ l : Clause String, (∀ p ∈ l, p ∈ m) → ∃ (N : ℕ) (l' : Clause String), l'.map Prod.fst = l.map Prod.fst ∧ (∀ p ∈ l', p.2.basic? = some (.id p.1) ∧ PlainLit Q p.2 ∧ (T p.1 → p.2.ChainLit p.1)) ∧
      ∀ n, N ≤ n → solveClause c n l = .ok (l'.map (fun p => (p.1, p.2.values))) := by
    intro l
    induction l with
    | nil => intro _; exact ⟨0, [], rfl, by simp, fun _ _ => rfl⟩
    | cons p l ih =>
      intro hl
      obtain ⟨N1, x, b1, b2, b3, b0⟩ := one p (hl p (by simp))
      obtain ⟨N2, l', b4, b5, b6⟩ := ih (fun p hp => hl p (by simp [hp]))
      refine ⟨max N1 N2, (p.1, x) :: l', by simp [b4], ?_, fun n hn => ?_⟩
      · intro q hq
        rcases List.mem_cons.1 hq with rfl | hq
        · exact ⟨b1, b2, b0⟩
        · exact b5 q hq
      · have e1 := b3 n (le_trans (le_max_left _ _) hn)
        have e2 := b6 n (le_trans (le_max_right _ _) hn)
        unfold solveClause at e2 ⊢
        rw [List.mapM_cons, e1, e2]
        rfl
  obtain ⟨N, m', k1, k2, k3⟩ := key m (fun p hp => hp)
  refine ⟨N, m', ⟨?_, by rw [k1]; exact h1.nodup, fun p hp => (k2 p hp).1, fun p hp => (k2 p hp).2.1, ?_⟩, k3, fun p hp => (k2 p hp).2.2⟩
  · rintro rfl; simp at k1; exact h2 k1
  · intro p hp
    have : p.1 ∈ m.map Prod.fst := by rw [← k1]; exact List.mem_map_of_mem hp
    obtain ⟨q, hq, hqp⟩ := List.mem_map.1 this
    rw [← hqp]; exact (hsym q hq).1

theorem dnfFactor1_mix (hc : c.Correct) (hl : c.Linear) {d : Ev} (hd : d.IsDnf) (hv : d.Valid) (ha : d.All (MixLit Q T)) :
    ∃ (fs ms : List (Clause String)) (N : ℕ), dnfFactor1 c d = .ok fs ∧ (∀ m ∈ ms, PlainClause Q d.symbols m) ∧
      ∀ n, N ≤ n → fs.mapM (solveClause c n) = .ok (ms.map (fun m => m.map (fun p => (p.1, p.2.values)))) := by
  have one : ∀ e, e.IsClause → e.Valid → e.All (MixLit Q T) → e.symbols ⊆ d.symbols → ∃ m N m', factorClause c (selfLookup d) e = .ok m ∧
      PlainClause Q d.symbols m' ∧ ∀ n, N ≤ n → solveClause c n m = .ok (m'.map (fun p => (p.1, p.2.values))) := by
    intro e h1 h2 h3 h4
    obtain ⟨m, hm, hf⟩ := factorClause_mix (c := c) (d := d) h1 h3 h4
    obtain ⟨N, m', h5, h6, -⟩ := solveClause_mix (D := ∅) hc hl h2 h3 hm hf
    exact ⟨m, N, m', hm, h5, h6⟩
  unfold dnfFactor1 dnfFactor
  cases d with
  | or es =>
    simp only
    rw [if_pos (by
      simp only [List.all_eq_true]
      intro e he
      have := hd.2 e he
      cases e <;> first | rfl | exact False.elim this)]
    have hves : ∀ e ∈ es, e.Valid := by cases hv with | or _ h => exact h
    have key : ∀ l : List Ev, (∀ e ∈ l, e ∈ es) → ∃ (fs ms : List (Clause String)) (N : ℕ), l.mapM (factorClause c (selfLookup (.or es))) = .ok fs ∧ (∀ m ∈ ms, PlainClause Q (Ev.or es).symbols m) ∧
        ∀ n, N ≤ n → fs.mapM (solveClause c n) = .ok (ms.map (fun m => m.map (fun p => (p.1, p.2.values)))) := by
      intro l
      induction l with
      | nil => intro _; exact ⟨[], [], 0, rfl, by simp, fun _ _ => rfl⟩
      | cons e l ih =>
        intro hl
        have he := hl e (by simp)
        obtain ⟨m, N, m', b1, b2, b3⟩ := one e (hd.2 e he) (hves e he) (Ev.all_or.1 ha e he)
          (Ev.symbols_all.2 (Ev.all_or.1 (Ev.symbols_all.1 (le_refl _)) e he))
        obtain ⟨fs, ms, N', b4, b5, b6⟩ := ih (fun e he => hl e (by simp [he]))
        refine ⟨m :: fs, m' :: ms, max N N', ?_, ?_, fun n hn => ?_⟩
        · rw [List.mapM_cons, b1, b4]; rfl
        · intro x hx
          rcases List.mem_cons.1 hx with rfl | hx
          · exact b2
          · exact b5 x hx
        · rw [List.mapM_cons, b3 n (le_trans (le_max_left _ _) hn), b6 n (le_trans (le_max_right _ _) hn)]; rfl
    exact key es (fun e he => he)
  | _ =>
    obtain ⟨m, N, m', hm, h2, h3⟩ := one _ (by exact hd) hv ha (le_refl _)
    simp only [hm, bind, Except.bind]
    refine ⟨_, [m'], N, rfl, by simpa using h2, fun n hn => ?_⟩
    rw [List.mapM_cons, h3 n hn]; rfl

/-! ## `dnf_normalize` -/

/-- The part of `dnf_normalize` after solving the clauses. -/
noncomputable def normRest (c : Ctx) (sols : List Sol) : Res (Option Ev) := do
  let good := sols.filter (fun s => s.all (fun p => !p.2.isEmpty))
  if good = [] then .ok none
  else do
    let conjs ← (dedupSols good).mapM (solConj c)
    let disj ← reduceM (Ev.lor c) conjs
    let r ← disj.toDnf
    .ok (some r)

theorem normalizeBody_rest (n : ℕ) (e : Ev) : normalizeBody c n e = (do
    let d ← e.toDnf
    let fs ← dnfFactor1 c d
    let sols ← fs.mapM (solveClause c n)
    normRest c sols) := rfl

theorem normRest_total {D : Finset String} {ms : List (Clause String)} (hpc : ∀ m ∈ ms, PlainClause Q D m) :
    ∃ o, normRest c (ms.map (fun m => m.map (fun p => (p.1, p.2.values)))) = .ok o ∧ ∀ r, o = some r → NormTotal Q r := by
  unfold normRest
  simp only [bind, Except.bind]
  set good := (ms.map (fun m => m.map (fun p => (p.1, p.2.values)))).filter (fun s => s.all (fun p => !p.2.isEmpty)) with hgood
  by_cases hg : good = []
  · rw [if_pos hg]
    exact ⟨none, rfl, by simp⟩
  · rw [if_neg hg]
    have hfull : ∀ s ∈ dedupSols good, ∃ m, FullClause Q m ∧ s = m.map (fun p => (p.1, p.2.values)) := by
      intro s hs
      have hs' := mem_dedupSols hs
      rw [hgood] at hs'
      obtain ⟨h1, h2⟩ := List.mem_filter.1 hs'
      obtain ⟨m, hm, rfl⟩ := List.mem_map.1 h1
      refine ⟨m, ⟨(hpc m hm).ne, (hpc m hm).nodup, (hpc m hm).lit, fun p hp => ⟨(hpc m hm).plain p hp, ?_⟩⟩, rfl⟩
      simp only [List.all_eq_true] at h2
      have := h2 (p.1, p.2.values) (List.mem_map_of_mem (f := fun p : String × Ev => (p.1, p.2.values)) hp)
      intro he
      rw [he] at this
      simp [SSet.isEmpty] at this
    have hne : dedupSols good ≠ [] := by
      obtain ⟨x, hx⟩ := List.exists_mem_of_ne_nil _ hg
      obtain ⟨y, hy, -⟩ := dedupSols_cover (fun _ => none) hx
      exact List.ne_nil_of_mem hy
    obtain ⟨conjs, hconjs, hlen, hcj⟩ := mapM_total (f := solConj c) (P := fun g => g.Valid ∧ g.IsClause ∧ ∃ ω, g.holds ω) (l := dedupSols good) (by
      intro s hs
      obtain ⟨m, hm, rfl⟩ := hfull s hs
      obtain ⟨g, hg1, hg2, hg3, hg4⟩ := hm.solConj (c := c)
      obtain ⟨ω, hω⟩ := hm.sat
      exact ⟨g, hg1, hg2, hg3, ω, (hg4 ω).2 hω⟩)
    simp only [hconjs]
    obtain ⟨disj, hdisj, hdv⟩ := reduceM_lor_total c (l := conjs) (by
      intro e; rw [e] at hlen; exact hne (List.length_eq_zero_iff.1 hlen.symm)) (fun e he => (hcj e he).1)
    simp only [hdisj]
    obtain ⟨r, hr1, hr2, hr3, hr4, hr5⟩ := Ev.toDnf_spec hdv
    simp only [hr1]
    refine ⟨some r, rfl, ?_⟩
    rintro r' h; cases h
    have hsat : ClausesSat disj := by
      have := reduceM_ind (Q := fun e => e.Valid ∧ ClausesSat e ∧ ∃ ω, e.holds ω) (f := Ev.lor c) (by
        rintro x y z ⟨x1, x2, ω, x3⟩ ⟨y1, y2, -⟩ hz
        have := Ev.lor_spec x1 y1 hz
        exact ⟨this.1, clausesSat_lor x1 y1 (fun _ _ => ⟨ω, x3⟩) x2 y2 hz, ω, (this.2 ω).2 (Or.inl x3)⟩) (l := conjs) (by
        intro x hx
        obtain ⟨h1, h2, ω, h3⟩ := hcj x hx
        exact ⟨h1, clausesSat_clause h2 h3, ω, h3⟩) hdisj
      exact this.2.1
    refine ⟨hr2, hr3, hr5 _ ?_, clausesSat_toDnf hdv hsat hr1⟩
    refine reduceM_ind (Q := fun e => e.All (FullLit Q)) (f := Ev.lor c) (fun x y z hx hy hz => Ev.lor_all fullLit_or hx hy hz) (l := conjs) ?_ hdisj
    intro x hx
    obtain ⟨s, hs, hsx⟩ := forall₂_mem_right (mapM_ok hconjs) hx
    obtain ⟨m, hm, rfl⟩ := hfull s hs
    refine (solConj_all (P := FullLit Q) fullLit_or ?_ ?_ ?_ ?_ hsx).mono (fun _ _ _ h => h.1)
    · intro q hq
      obtain ⟨p, hp, rfl⟩ := List.mem_map.1 hq
      exact (Ev.valid_basic (hm.lit p hp)).1 (hm.full p hp).1.1
    · rw [List.map_map]; exact hm.nodup
    · intro q hq
      obtain ⟨p, hp, rfl⟩ := List.mem_map.1 hq
      exact (hm.full p hp).2
    · intro q hq pc hpc l hl1 hl2
      obtain ⟨p, hp, rfl⟩ := List.mem_map.1 hq
      have hpv : p.2.values = .pc pc := by
        have := Ev.values_not_un p.2
        simp only at hpc
        cases hS : p.2.values with
        | empty => rw [hS] at hpc; simp [SSet.pieces] at hpc
        | pc p' => rw [hS] at hpc; simp [SSet.pieces] at hpc; subst hpc; rfl
        | un u => exact absurd hS (this u)
      obtain ⟨⟨h1, k, hk, hw⟩, h2⟩ := hm.full p hp
      rw [hm.lit p hp] at hk
      have hkk : p.1 = k := by injection hk with h; injection h
      subst hkk
      refine ⟨⟨(Ev.valid_basic hl1).2 ?_, p.1, hl1, ?_⟩, ?_⟩
      · rw [hl2, ← hpv]; exact (Ev.valid_basic (hm.lit p hp)).1 h1
      · rw [hl2, ← hpv]; exact hw
      · rw [hl2]; simp


theorem normalizeBody_mix (hc : c.Correct) (hl : c.Linear) {e : Ev} (hv : e.Valid) (ha : e.All (MixLit Q T)) :
    ∃ N o, (∀ n, N ≤ n → normalizeBody c n e = .ok o) ∧ ∀ r, o = some r → NormTotal Q r := by
  obtain ⟨d, hd1, hd2, hd3, hd4, hd5⟩ := Ev.toDnf_spec hv
  obtain ⟨fs, ms, N, h1, h2, h3⟩ := dnfFactor1_mix hc hl hd2 hd3 (hd5 _ ha)
  obtain ⟨o, h4, h5⟩ := normRest_total (c := c) h2
  refine ⟨N, o, fun n hn => ?_, h5⟩
  rw [normalizeBody_rest]
  simp only [hd1, h1, h3 n hn, bind, Except.bind, h4]

theorem mixLit_id {e : Ev} {k : String} (hb : e.basic? = some (.id k)) (h : MixLit Q T e) : PlainLit Q e := by
  obtain ⟨k', h1, h2, h3⟩ := h.symbol
  have hk : k' = k := by rw [symbols_of_basic hb] at h1; simpa [Tr.symbols] using h1.symm
  subst hk
  by_cases hT : T k'
  · obtain ⟨hQ, hl, hlive⟩ := h3 hT
    obtain ⟨t, ht, hb', hV⟩ := hl.flat
    have hn : NoInf e.values := by
      rcases hlive with ⟨ω, hω⟩ | ⟨t, rfl⟩
      · obtain ⟨y, -, hy⟩ := (hl.holds hb' ω).1 hω
        exact hV.noInf (coe_proper y) hy
      · intro v hv; simp [Ev.values] at hv
    obtain ⟨a1, ⟨-, k'', a2, a3⟩, a4⟩ := litOf_plain hQ hV hn
    rw [a1] at a2; cases a2
    exact ⟨hl.valid, _, hb, by rw [← a4]; exact a3⟩
  · exact (h2 hT).2

/-- `dnf_normalize` returns, and the result does not depend on the bound `n` once it is large enough. -/
theorem dnfNormalize_mix (hc : c.Correct) (hl : c.Linear) {e : Ev} (hv : e.Valid) (ha : e.All (MixLit Q T)) :
    ∃ N o, (∀ n, N ≤ n → dnfNormalize c n e = .ok o) ∧ ∀ r, o = some r → r.IsDnf ∧ r.Valid ∧ r.All (PlainLit Q) ∧ (NormTotal Q r ∨ ∀ es, r ≠ .or es) := by
  unfold dnfNormalize
  by_cases h : e.isIdLit = true
  · simp only [h, if_true]
    refine ⟨0, some e, fun _ _ => rfl, ?_⟩
    rintro r h'; cases h'
    obtain ⟨h1, k, hk⟩ := isIdLit_spec h
    refine ⟨?_, hv, .lit hk (mixLit_id hk ((Ev.all_lit hk).1 ha)), Or.inr ?_⟩
    · cases e <;> first | trivial | simp [Ev.isIdLit, Ev.basic?] at h
    · rintro es rfl; simp [Ev.isIdLit, Ev.basic?] at h
  · simp only [h, if_false]
    obtain ⟨N, o, h1, h2⟩ := normalizeBody_mix hc hl hv ha
    exact ⟨N, o, h1, fun r hr => ⟨(h2 r hr).dnf, (h2 r hr).valid, full_plain (h2 r hr).full, Or.inl (h2 r hr)⟩⟩

theorem Ev.Curved.made {e : Ev} (h : e.Curved Q T) : e.Made c := by
  induction h with
  | @plain e k h1 h2 h3 =>
    obtain ⟨ev, ea⟩ := h3.all
    exact (vars_made (c := c) (A := {k}) ev (.lit h1 ⟨k, Finset.mem_singleton_self _, h1⟩)).1
  | curve h1 h2 h3 h4 => exact h3.made
  | or hne _ ih => exact .or hne ih
  | and hne _ ih => exact .and hne ih

end Sppl
