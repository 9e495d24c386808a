import Verif.Dnf.Props

set_option linter.all false

/-!
# C15: `dnf_factor`, clause by clause
-/

namespace Sppl
open Classical

variable {K : Type} [DecidableEq K] {c : Ctx} {lookup : String → Option K}

theorem addAnd_keys {k : K} {ev : Ev} {m m' : Clause K} (h : Clause.addAnd c k ev m = .ok m') (x : K) :
    x ∈ m'.map Prod.fst ↔ x ∈ m.map Prod.fst ∨ x = k := by
  rcases Clause.addAnd_ok h with ⟨-, rfl⟩ | ⟨a, e, b, g, rfl, -, rfl⟩
  · simp [or_comm]
  · simp only [List.map_append, List.map_cons, List.mem_append, List.mem_cons]
    tauto

theorem factorLit_key {e : Ev} {p : K × Ev} (h : factorLit lookup e = .ok p) (x : K) : (∃ s ∈ e.symbols, lookup s = some x) ↔ x = p.1 := by
  obtain ⟨-, s, hs, hl⟩ := factorLit_ok h
  rw [hs]
  simp only [Finset.mem_singleton, exists_eq_left, hl, Option.some.injEq]
  exact eq_comm

theorem factorLoop_keys : ∀ (es : List Ev) {m m' : Clause K}, factorLoop c lookup m es = .ok m' → ∀ x : K,
    x ∈ m'.map Prod.fst ↔ x ∈ m.map Prod.fst ∨ ∃ e ∈ es, ∃ s ∈ e.symbols, lookup s = some x
  | [], m, m', h, x => by
    simp [factorLoop, pure, Except.pure] at h; subst h; simp
  | e :: es, m, m', h, x => by
    simp only [factorLoop, List.foldlM_cons, bind, Except.bind] at h
    split at h; · cases h
    rename_i m1 h1
    split at h1; · cases h1
    rename_i ke hke
    rw [factorLoop_keys es h x, addAnd_keys h1 x, ← factorLit_key hke x]
    simp [or_assoc]

theorem factorClause_keys {e : Ev} {m : Clause K} (h : factorClause c lookup e = .ok m) (x : K) :
    x ∈ m.map Prod.fst ↔ ∃ s ∈ e.symbols, lookup s = some x := by
  have lit : ∀ {e : Ev}, (do let ke ← factorLit lookup e; .ok [ke]) = Except.ok m → (x ∈ m.map Prod.fst ↔ ∃ s ∈ e.symbols, lookup s = some x) := by
    intro e h
    simp only [bind, Except.bind] at h
    split at h; · cases h
    rename_i ke hke
    cases h
    rw [factorLit_key hke x]
    simp
  cases e with
  | and es =>
    simp only [factorClause] at h
    split at h
    · rw [factorLoop_keys es h x, Ev.symbols]
      simp only [Ev.mem_symbolsL, List.map_nil, List.not_mem_nil, false_or]
      constructor
      · rintro ⟨e, he, s, hs, hl⟩; exact ⟨s, ⟨e, he, hs⟩, hl⟩
      · rintro ⟨s, ⟨e, he, hs⟩, hl⟩; exact ⟨e, he, s, hs, hl⟩
    · cases h
  | or es => simp [factorClause] at h
  | ivl t i => exact lit h
  | fin t i => exact lit h
  | nom t i => exact lit h

/-- **C15 (clause by clause).** Whenever `dnf_factor` returns, its dictionaries are those of the clauses, in their order: all events of a dictionary
hold exactly where the clause does, and its keys are exactly those of the variables of the clause. -/
theorem C15_clausewise {e : Ev} (hv : e.Valid) {R : List (Clause K)} (h : dnfFactor c lookup e = .ok R) :
    List.Forall₂ (fun cl m => (∀ ω, (∀ p ∈ m, p.2.holds ω) ↔ cl.holds ω) ∧ ∀ k, k ∈ m.map Prod.fst ↔ ∃ s ∈ cl.symbols, lookup s = some k) e.clauses R := by
  have hT : e.All (fun _ => True) := (Ev.valid_all hv).mono (fun _ _ _ _ => trivial)
  obtain ⟨-, h2⟩ := dnfFactor_ok (P := fun _ => True) (fun _ _ _ _ _ _ => trivial) hv hT h
  have h3 : List.Forall₂ (fun cl m => factorClause c lookup cl = .ok m) e.disjuncts R := by
    have one : ∀ {e : Ev}, (do let m ← factorClause c lookup e; .ok [m]) = Except.ok R → List.Forall₂ (fun cl m => factorClause c lookup cl = .ok m) [e] R := by
      intro e h
      simp only [bind, Except.bind] at h
      split at h; · cases h
      rename_i m hm
      cases h
      exact .cons hm .nil
    cases e with
    | or es =>
      simp only [dnfFactor] at h
      split at h
      · exact mapM_ok h
      · cases h
    | and es => exact one h
    | ivl t i => exact one h
    | fin t i => exact one h
    | nom t i => exact one h
  have hd : e.clauses = e.disjuncts := by cases e <;> rfl
  rw [hd]
  generalize e.disjuncts = ds at h2 h3
  clear h
  induction h3 with
  | nil => exact .nil
  | cons a _ ih =>
    cases h2 with
    | cons b t =>
      exact .cons ⟨fun ω => (b.1.holds ω).trans (Ev.conjuncts_holds _ ω), factorClause_keys a⟩ (ih t)

/-! ## Non-vacuity -/

/-- Two clauses over three variables in two blocks (evaluated in `Dnf/Props.lean`). -/
example (c : Ctx) : (Ev.or [.and [nomE "X" "a", nomE "Y" "b", nomE "Z" "c"], nomE "Y" "d"]).Valid ∧
    ∃ R, dnfFactor c (fun s => if s = "Y" then some 1 else some 0) (.or [.and [nomE "X" "a", nomE "Y" "b", nomE "Z" "c"], nomE "Y" "d"]) = .ok R := by
  refine ⟨.or (by simp) ?_, [[(0, .and [nomE "X" "a", nomE "Z" "c"]), (1, nomE "Y" "b")], [(1, nomE "Y" "d")]], ?_⟩
  · intro e he
    simp at he
    rcases he with rfl | rfl
    · refine .and (by simp) ?_
      intro e he
      simp at he
      rcases he with rfl | rfl | rfl <;> exact nomE_valid _ _
    · exact nomE_valid _ _
  · simp [dnfFactor, factorClause, factorLoop, factorLit, Ev.symbol1, nomE, Ev.symbols, Tr.symbols, Clause.addAnd, Ev.basic?, bind, Except.bind,
      Ev.land, Ev.simplify, Ev.conjuncts, List.mapM_cons, pure, Except.pure]

end Sppl
