import Verif.Dnf.DisjLemmas
import Verif.Events.Props

/-!
# Properties C13-C16: normal forms of events (`dnf.py`)
-/

namespace Sppl
open Classical

theorem onVar_iff {s : String} {e : Ev} : e.OnVar s ↔ e.basic? = some (.id s) := by
  cases e <;> simp [Ev.OnVar, Ev.basic?]

theorem varsOnlyL_iff {es : List Ev} : Ev.VarsOnlyL es ↔ ∀ e ∈ es, e.VarsOnly := by
  induction es with
  | nil => simp [Ev.VarsOnlyL]
  | cons e es ih => simp [Ev.VarsOnlyL, ih]

theorem varsOnly_iff : ∀ e : Ev, e.VarsOnly ↔ e.All (fun l => ∃ k, l.basic? = some (.id k)) := by
  refine Ev.ind ?_ ?_ ?_
  · intro e t ht
    rw [Ev.all_lit ht]
    cases e <;> first | (simp [Ev.basic?] at ht; done) | simp [Ev.VarsOnly, Ev.OnVar, Ev.basic?]
  · intro es ih
    rw [Ev.all_or, Ev.VarsOnly, varsOnlyL_iff]
    exact forall₂_congr ih
  · intro es ih
    rw [Ev.all_and, Ev.VarsOnly, varsOnlyL_iff]
    exact forall₂_congr ih

/-! ## C13: `to_dnf` -/

/-- C13: `e.to_dnf()` always returns; the result is a disjunction of conjunctions of basic events and
holds exactly where `e` does. -/
theorem C13_to_dnf {e : Ev} (hv : e.Valid) :
    ∃ r, e.toDnf = .ok r ∧ r.IsDnf ∧ r.Valid ∧ ∀ ω, r.holds ω ↔ e.holds ω := by
  obtain ⟨r, h1, h2, h3, h4, -⟩ := Ev.toDnf_spec hv
  exact ⟨r, h1, h2, h3, h4⟩

/-- A string comparison. -/
def nomE (s x : String) : Ev := .nom (.id s) (some ⟨{x}, none⟩)
/-- Its complement, as returned by `~`. -/
def nomN (s x : String) : Ev := .nom (.id s) (some ⟨{x}, some true⟩)

theorem nomE_valid (s x : String) : (nomE s x).Valid := .nom (by simp [Nom.WF])

/-- C13 non-vacuity: `(A | B) & (C | D)` has four clauses. -/
example : (Ev.and [.or [nomE "X" "a", nomE "Y" "b"], .or [nomE "Z" "c", nomE "W" "d"]]).toDnf =
    .ok (.or [.and [nomE "X" "a", nomE "Z" "c"], .and [nomE "X" "a", nomE "W" "d"],
      .and [nomE "Y" "b", nomE "Z" "c"], .and [nomE "Y" "b", nomE "W" "d"]]) ∧
    (Ev.and [.or [nomE "X" "a", nomE "Y" "b"], .or [nomE "Z" "c", nomE "W" "d"]]).Valid := by
  refine ⟨by simp [Ev.toDnf, Ev.toDnfList, Ev.toDnfListL, nomE, cross, simplifyEvent, bind, Except.bind, List.mapM_cons, pure, Except.pure], ?_⟩
  refine .and (by simp) ?_
  intro e he
  simp at he
  rcases he with rfl | rfl <;> refine .or (by simp) ?_ <;> intro e he <;> simp at he <;> rcases he with rfl | rfl <;> exact nomE_valid _ _

/-! ## C15: `dnf_factor` -/

/-- C15: for an event in DNF and any lookup table, whenever `dnf_factor` returns, an assignment satisfies
the event iff it satisfies every factor of some returned clause; each clause has each key once, and the
factor under `k` only mentions symbols mapped to `k`. -/
theorem C15_factor {c : Ctx} {K : Type} [DecidableEq K] {lookup : String → Option K} {e : Ev} (hv : e.Valid)
    {R : List (Clause K)} (h : dnfFactor c lookup e = .ok R) :
    e.IsDnf ∧ (∀ ω, (∃ m ∈ R, ∀ p ∈ m, p.2.holds ω) ↔ e.holds ω) ∧
    ∀ m ∈ R, (m.map Prod.fst).Nodup ∧ ∀ p ∈ m, p.2.Valid ∧ p.2.IsClause ∧ ∀ s ∈ p.2.symbols, lookup s = some p.1 := by
  have hT : e.All (fun _ => True) := (Ev.valid_all hv).mono (fun _ _ _ _ => trivial)
  obtain ⟨h1, h2⟩ := dnfFactor_ok (P := fun _ => True) (fun _ _ _ _ _ _ => trivial) hv hT h
  refine ⟨h1, fun ω => ?_, fun m hm => ?_⟩
  · rw [← Ev.disjuncts_holds]
    constructor
    · rintro ⟨m, hm, hh⟩
      obtain ⟨cl, hcl, hF⟩ := forall₂_mem_right h2 hm
      exact ⟨cl, hcl, (Ev.conjuncts_holds cl ω).1 ((hF.1.holds ω).1 hh)⟩
    · rintro ⟨cl, hcl, hh⟩
      obtain ⟨m, hm, hF⟩ := forall₂_mem_left h2 hcl
      exact ⟨m, hm, (hF.1.holds ω).2 ((Ev.conjuncts_holds cl ω).2 hh)⟩
  · obtain ⟨cl, hcl, hF⟩ := forall₂_mem_right h2 hm
    refine ⟨hF.1.nodup, fun p hp => ⟨hF.1.valid p hp, hF.1.clause p hp, fun s hs => ?_⟩⟩
    have : p.2.All (fun l => l.symbols ⊆ p.2.symbols.filter (fun s => lookup s = some p.1)) := by
      refine ((hF.1.lk p hp).and' ((Ev.symbols_all (A := p.2.symbols)).1 (le_refl _))).mono ?_
      rintro l t - ⟨⟨s, hs, hl⟩, h'⟩
      intro x hx
      refine Finset.mem_filter.2 ⟨h' hx, ?_⟩
      rw [hs, Finset.mem_singleton] at hx
      rw [hx]; exact hl
    exact (Finset.mem_filter.1 (Ev.symbols_all.2 this hs)).2

/-- C15: on a DNF event whose basic events have one variable each, known to the lookup, `dnf_factor` does
return unless two factors of one key cannot be intersected. -/
theorem C15_factor_lit {c : Ctx} {K : Type} [DecidableEq K] {lookup : String → Option K} {e : Ev} (hl : e.IsLit) {s : String}
    (hs : e.symbols = {s}) {k : K} (hk : lookup s = some k) : dnfFactor c lookup e = .ok [[(k, e)]] := by
  have : e.symbol1 = .ok s := by simp [Ev.symbol1, hs]
  cases e <;> simp [Ev.IsLit] at hl <;>
    simp [dnfFactor, factorClause, factorLit, this, hk, bind, Except.bind]

/-- C15 non-vacuity: two clauses over three variables in two blocks; the two factors of block `0` in the
first clause are joined. -/
example (c : Ctx) : dnfFactor c (fun s => if s = "Y" then some 1 else some 0)
      (.or [.and [nomE "X" "a", nomE "Y" "b", nomE "Z" "c"], nomE "Y" "d"]) =
    .ok [[(0, .and [nomE "X" "a", nomE "Z" "c"]), (1, nomE "Y" "b")], [(1, nomE "Y" "d")]] := by
  simp [dnfFactor, factorClause, factorLoop, factorLit, Ev.symbol1, nomE, Ev.symbols, Tr.symbols, Clause.addAnd, Ev.basic?, bind, Except.bind,
    Ev.land, Ev.simplify, Ev.conjuncts, List.mapM_cons, pure, Except.pure]

/-! ## C14: `dnf_normalize` -/

/-- C14: whenever `dnf_normalize(e)` returns, it returns an event in DNF about plain variables of `e` that
holds exactly where `e` does, or `None` and `e` never holds (at points that do not hit the singularity of
a logarithm). -/
theorem C14_normalize {c : Ctx} (hc : c.Correct) {n : ℕ} {e : Ev} (hm : e.Made c) {o : Option Ev}
    (h : dnfNormalize c n e = .ok o) :
    (o = none → ∀ ω, e.Regular ω → ¬ e.holds ω) ∧
    ∀ r, o = some r → r.IsDnf ∧ r.Valid ∧ r.VarsOnly ∧ r.symbols ⊆ e.symbols ∧
      ∀ ω, e.Regular ω → (r.holds ω ↔ e.holds ω) := by
  obtain ⟨h1, h2⟩ := dnfNormalize_ok hc hm h
  refine ⟨h1, fun r hr => ?_⟩
  obtain ⟨h3, -⟩ := h2 r hr
  refine ⟨h3.dnf, Ev.Made.valid _ h3.made, (varsOnly_iff r).2 (h3.vars.mono ?_), ?_, h3.holds⟩
  · rintro l t - ⟨k, -, hl⟩; exact ⟨k, hl⟩
  · rw [Ev.symbols_all]
    refine h3.vars.mono ?_
    rintro l t - ⟨k, hk, hl⟩
    rw [symbols_of_basic hl]; simpa [Tr.symbols] using hk

/-- C14 non-vacuity: `0 <= 2 X + 1 < 4` becomes `-1/2 <= X < 3/2`. -/
example : dnfNormalize ctx0 5 linEv = .ok (some (.ivl (.id "X") ⟨((-1/2 : ℝ) : EReal), ((3/2 : ℝ) : EReal), false, true⟩)) ∧
    linEv.Made ctx0 := by
  refine ⟨?_, linEv_made⟩
  have hs : linEv.symbols = {"X"} := by simp [linEv, lin, Ev.symbols, Tr.symbols]
  have h1 : linEv.isIdLit = false := rfl
  have h2 : linEv.toDnf = .ok linEv := by
    simp [linEv, Ev.toDnf, Ev.toDnfList, simplifyEvent, bind, Except.bind, pure, Except.pure]
  have h3 : dnfFactor1 ctx0 linEv = .ok [[("X", linEv)]] :=
    C15_factor_lit (e := linEv) (s := "X") trivial hs (by simp [selfLookup, hs])
  simp only [dnfNormalize, h1, normalizeBody, h2, h3, bind, Except.bind, List.mapM_cons, List.mapM_nil, solveClause, linEv_solve, pure, Except.pure]
  simp [SSet.isEmpty, dedupSols, solConj, Tr.inSet, reduceM, Ev.toDnf, Ev.toDnfList, simplifyEvent, bind, Except.bind, pure, Except.pure]

/-- C14 non-vacuity: `X in {'a'} and X in {'b'}` is `None`. -/
example : dnfNormalize ctx0 5 (.and [nomE "X" "a", nomE "X" "b"]) = .ok none ∧ (Ev.and [nomE "X" "a", nomE "X" "b"]).Made ctx0 := by
  constructor
  · simp [dnfNormalize, Ev.isIdLit, Ev.basic?, nomE, normalizeBody, Ev.toDnf, Ev.toDnfList, Ev.toDnfListL, cross, simplifyEvent, dnfFactor1, dnfFactor,
      factorClause, factorLoop, factorLit, Ev.symbol1, Ev.symbols, Ev.symbolsL, Tr.symbols, selfLookup, Clause.addAnd, Ev.land, Ev.simplify, Ev.values,
      SSet.and, Piece.and, Nom.and, Nom.neg, Nom.has, nomOrEmpty, Ev.ofSet, solveClause, Ev.solve, optFin, SSet.isEmpty,
      bind, Except.bind, pure, Except.pure, List.mapM_cons]
  · refine .and (by simp) ?_
    intro e he
    simp at he
    rcases he with rfl | rfl <;> exact .nom (.id _) (by simp) (by simp [Nom.WF])

/-! ## C16: `dnf_to_disjoint_union` -/

theorem varsOnly_made {c : Ctx} {e : Ev} (hv : e.Valid) (h : e.VarsOnly) : e.Made c ∧ e.All NomId ∧ ∀ ω, e.Regular ω := by
  refine vars_made (A := e.symbols) hv (((varsOnly_iff e).1 h |>.and' ((Ev.symbols_all (A := e.symbols)).1 (le_refl _))).mono ?_)
  rintro l t - ⟨⟨k, hk⟩, h2⟩
  rw [symbols_of_basic hk] at h2
  exact ⟨k, h2 (by simp [Tr.symbols]), hk⟩

/-- C16: whenever `dnf_to_disjoint_union(e)` returns `g`, for a normalized event `e` in any number of
variables and overlapping clauses: `g` is in DNF, no assignment satisfies two of its clauses, `g` implies
`e`, and `g` holds exactly where `e` does at each assignment that gives every variable a value of the kind
it is compared with.  (Missing: equivalence at other assignments, where it is false,
see `C16_mixed_kinds_wrong`.  The recursion terminates: `C16_terminates`.) -/
theorem C16_disjoint_union_partial {c : Ctx} (hc : c.Correct) {n d : ℕ} {e g : Ev} (he : e.IsDnf) (hv : e.Valid) (hvars : e.VarsOnly)
    (h : toDisjoint c n d e = .ok g) :
    g.IsDnf ∧ g.Valid ∧ g.symbols ⊆ e.symbols ∧
    (∀ ω, g.clauses.Pairwise (fun a b => ¬ (a.holds ω ∧ b.holds ω))) ∧
    (∀ ω, g.holds ω → e.holds ω) ∧ ∀ ω, e.Typed ω → (g.holds ω ↔ e.holds ω) := by
  obtain ⟨h1, h2, h3⟩ := varsOnly_made (c := c) hv hvars
  have H := toDisjoint_ok hc d he h1 h2 h
  have hcl : g.clauses = g.disjuncts := by cases g <;> rfl
  exact ⟨H.dnf, Ev.Made.valid _ H.made, H.symbols, fun ω => by rw [hcl]; exact H.disj ω (h3 ω), fun ω => H.sound ω (h3 ω),
    fun ω hT => ⟨H.sound ω (h3 ω), H.complete ω (h3 ω) (.inr hT)⟩⟩

/-- C16 for any event in DNF, transformed variables included, at points that do not hit the singularity of
a logarithm. -/
theorem C16_disjoint_union_any {c : Ctx} (hc : c.Correct) {n d : ℕ} {e g : Ev} (he : e.IsDnf) (hm : e.Made c) (hn : e.All NomId)
    (h : toDisjoint c n d e = .ok g) (ω : Asg) (hr : e.Regular ω) :
    g.clauses.Pairwise (fun a b => ¬ (a.holds ω ∧ b.holds ω)) ∧ (g.holds ω → e.holds ω) ∧ (e.Typed ω → (g.holds ω ↔ e.holds ω)) := by
  have H := toDisjoint_ok hc d he hm hn h
  have hcl : g.clauses = g.disjuncts := by cases g <;> rfl
  exact ⟨by rw [hcl]; exact H.disj ω hr, H.sound ω hr, fun hT => ⟨H.sound ω hr, H.complete ω hr (.inr hT)⟩⟩

/-- `X == 'a' | Y == 'b'`. -/
def overlapE : Ev := .or [nomE "X" "a", nomE "Y" "b"]
/-- `X == 'a' | (Y == 'b' & X != 'a')`. -/
def overlapR : Ev := .or [nomE "X" "a", .and [nomE "Y" "b", nomN "X" "a"]]

theorem overlap_disjoint (d : ℕ) : toDisjoint ctx0 5 (d + 2) overlapE = .ok overlapR := by
  have hfac : dnfFactor1 ctx0 overlapE = .ok [[("X", nomE "X" "a")], [("Y", nomE "Y" "b")]] := by
    simp [overlapE, dnfFactor1, dnfFactor, nomE, factorClause, factorLit, Ev.symbol1, Ev.symbols, Ev.symbolsL, Tr.symbols, selfLookup,
      bind, Except.bind, pure, Except.pure, List.mapM_cons]
  have hcas : cascade ctx0 [nomE "X" "a", nomE "Y" "b"] (nomE "Y" "b") [0] = .ok (.and [nomE "Y" "b", nomN "X" "a"]) := by
    simp [cascade, nomE, nomN, Ev.not, notNom, optNom, SSet.invert, Piece.invert, Nom.invert, Nom.neg, mkNom, Ev.land, Ev.simplify, Ev.basic?, Ev.conjuncts,
      bind, Except.bind, pure, Except.pure, List.foldlM]
  have hnov : nonDisjoint ctx0 [[("X", .pc (.nom ⟨{"a"}, none⟩))], [("Y", .pc (.nom ⟨{"b"}, none⟩))]] = .ok [[], [0]] := by
    simp [nonDisjoint, anyEmptyInter, interWith, SSet.isEmpty, List.zipIdx, List.mapM_cons, bind, Except.bind, pure, Except.pure, List.filterMapM_cons,
      List.filterMapM_nil, List.lookup]
  have hn1 : dnfNormalize ctx0 5 (nomE "X" "a") = .ok (some (nomE "X" "a")) := rfl
  have hn2 : dnfNormalize ctx0 5 (.and [nomE "Y" "b", nomN "X" "a"]) = .ok (some (.and [nomE "Y" "b", nomN "X" "a"])) := by
    simp [dnfNormalize, Ev.isIdLit, Ev.basic?, nomE, nomN, normalizeBody, Ev.toDnf, Ev.toDnfList, Ev.toDnfListL, cross, simplifyEvent, dnfFactor1, dnfFactor,
      factorClause, factorLoop, factorLit, Ev.symbol1, Ev.symbols, Ev.symbolsL, Tr.symbols, selfLookup, Clause.addAnd, 
      solveClause, Ev.solve, optNom, SSet.isEmpty, dedupSols, solConj, Tr.inSet, reduceM, Ev.land, Ev.simplify, Ev.conjuncts,
      bind, Except.bind, pure, Except.pure, List.mapM_cons]
  have hsol : [[("X", nomE "X" "a")], [("Y", nomE "Y" "b")]].mapM (solveClause ctx0 5) =
      .ok [[("X", .pc (.nom ⟨{"a"}, none⟩))], [("Y", .pc (.nom ⟨{"b"}, none⟩))]] := by
    simp [solveClause, Ev.solve, nomE, optNom, bind, Except.bind, pure, Except.pure, List.mapM_cons]
  have hc0 : cascade ctx0 [nomE "X" "a", nomE "Y" "b"] (nomE "X" "a") [] = .ok (nomE "X" "a") := rfl
  unfold overlapE at *
  simp only [toDisjoint, hfac, hsol, hnov, bind, Except.bind]
  simp only [List.all_cons, List.isEmpty_nil, List.isEmpty_cons, Bool.false_and, Bool.and_false, Bool.false_eq_true, if_false,
    List.zip_cons_cons, List.zip_nil_right, List.mapM_cons, List.mapM_nil, hcas, hc0, bind, Except.bind, pure, Except.pure, hn1, hn2,
    List.filterMap_cons, id, List.filterMap_nil]
  simp [nomE, nomN, toDisjoint, reduceM, Ev.lor, Ev.simplify, Ev.basic?, Ev.disjuncts, bind, Except.bind, pure, Except.pure, overlapR]

/-- C16 non-vacuity: an overlapping disjunction of two variables is made disjoint. -/
example : toDisjoint ctx0 5 2 overlapE = .ok overlapR ∧ overlapE.IsDnf ∧ overlapE.Valid ∧ overlapE.VarsOnly ∧
    overlapE.Typed (fun _ => some (.str "b")) := by
  refine ⟨overlap_disjoint 0, ?_, ?_, ?_, ?_⟩
  · simp [overlapE, Ev.IsDnf, Ev.IsClause, nomE]
  · refine .or (by simp) ?_
    intro e he
    simp at he
    rcases he with rfl | rfl <;> exact nomE_valid _ _
  · simp [overlapE, nomE, Ev.VarsOnly, Ev.VarsOnlyL, Ev.OnVar]
  · simp [overlapE, nomE, Ev.Typed, Ev.TypedL, Tr.eval]

/-- C16 counterexample: at an assignment where `X` is a number, `X == 'a' | Y == 'b'` holds because of `Y`
but the disjoint union returned by the code does not, since a number does not satisfy `X != 'a'`. -/
theorem C16_mixed_kinds_wrong : toDisjoint ctx0 5 2 overlapE = .ok overlapR ∧
    ∃ ω, overlapE.holds ω ∧ ¬ overlapR.holds ω := by
  refine ⟨overlap_disjoint 0, fun s => if s = "X" then some (.num 0) else some (.str "b"), ?_, ?_⟩
  · simp [overlapE, nomE, Tr.eval]
  · simp [overlapR, nomE, nomN, Tr.eval]

end Sppl
