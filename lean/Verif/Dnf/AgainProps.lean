import Verif.Dnf.Props

set_option linter.all false

/-!
# C13: normal forms are fixed by `to_dnf`, and how long they are
-/

namespace Sppl
open Classical

mutual
/-- The number of ways to choose one part of every disjunction (and all parts of every conjunction). -/
def Ev.choices : Ev → ℕ
  | .or es => (Ev.choicesL es).sum
  | .and es => (Ev.choicesL es).prod
  | _ => 1
def Ev.choicesL : List Ev → List ℕ
  | [] => []
  | e :: es => e.choices :: Ev.choicesL es
end

theorem length_cross {α : Type} : ∀ ls : List (List α), (cross ls).length = (ls.map List.length).prod
  | [] => by simp [cross]
  | l :: ls => by
    rw [cross, List.length_flatMap]
    simp [length_cross ls]

mutual
theorem Ev.length_toDnfList : ∀ e : Ev, e.toDnfList.length = e.choices
  | .ivl t i => by simp [Ev.toDnfList, Ev.choices]
  | .fin t i => by simp [Ev.toDnfList, Ev.choices]
  | .nom t i => by simp [Ev.toDnfList, Ev.choices]
  | .or es => by rw [Ev.toDnfList, Ev.choices, List.length_flatten, Ev.length_toDnfListL es]
  | .and es => by rw [Ev.toDnfList, Ev.choices, List.length_map, length_cross, Ev.length_toDnfListL es]
theorem Ev.length_toDnfListL : ∀ es : List Ev, (Ev.toDnfListL es).map List.length = Ev.choicesL es
  | [] => by simp [Ev.toDnfListL, Ev.choicesL]
  | e :: es => by simp [Ev.toDnfListL, Ev.choicesL, Ev.length_toDnfList e, Ev.length_toDnfListL es]
end

theorem cross_single : ∀ es : List Ev, (∀ e ∈ es, e.IsLit) → (cross (Ev.toDnfListL es)).map List.flatten = [es]
  | [], _ => by simp [Ev.toDnfListL, cross]
  | e :: es, h => by
    obtain ⟨t, ht⟩ := Ev.isLit_iff.1 (h e (by simp))
    have ih := cross_single es (fun x hx => h x (by simp [hx]))
    rw [Ev.toDnfListL, Ev.toDnfList_lit ht, cross]
    simp only [List.flatMap_cons, List.flatMap_nil, List.append_nil, List.map_map]
    have : (List.flatten ∘ fun xs : List (List Ev) => [e] :: xs) = (fun l => e :: l) ∘ List.flatten := by
      funext xs; simp
    rw [this, ← List.map_map, ih]
    rfl

theorem simplify_clause {cl : List Ev} {g : Ev} (hl : ∀ l ∈ cl, l.IsLit) (h : simplifyEvent .and cl = .ok g) : g.toDnfList = [cl] := by
  match cl, hl, h with
  | [e], hl, h =>
    obtain ⟨t, ht⟩ := Ev.isLit_iff.1 (hl e (by simp))
    cases h
    exact Ev.toDnfList_lit ht
  | a :: b :: l, hl, h =>
    cases h
    rw [Ev.toDnfList]
    exact cross_single _ hl

theorem toDnfList_again : ∀ {ls : List (List Ev)} {gs : List Ev}, List.Forall₂ (fun cl g => (∀ l ∈ cl, l.IsLit) ∧ simplifyEvent .and cl = .ok g) ls gs →
    (Ev.toDnfListL gs).flatten = ls
  | _, _, .nil => by simp [Ev.toDnfListL]
  | _, _, .cons h t => by simp [Ev.toDnfListL, simplify_clause h.1 h.2, toDnfList_again t]

theorem toDnf_list {e r : Ev} (hv : e.Valid) (h : e.toDnf = .ok r) : r.toDnfList = e.toDnfList ∧ r.clauses.length = e.toDnfList.length := by
  obtain ⟨-, h2, -⟩ := Ev.toDnfList_spec (P := fun _ => True) e hv
  simp only [Ev.toDnf, bind, Except.bind] at h
  split at h; · cases h
  rename_i gs hgs
  have F := mapM_ok hgs
  have F' : List.Forall₂ (fun cl g => (∀ l ∈ cl, l.IsLit) ∧ simplifyEvent .and cl = .ok g) e.toDnfList gs := by
    have hx : ∀ cl ∈ e.toDnfList, ∀ l ∈ cl, l.IsLit := fun cl hcl l hl => ((h2 cl hcl).2 l hl).1
    clear h hgs h2
    revert hx
    generalize e.toDnfList = ls at F
    intro hx
    induction F with
    | nil => exact .nil
    | cons a _ ih => exact .cons ⟨hx _ (by simp), a⟩ (ih (fun cl hcl => hx cl (by simp [hcl])))
  have A := toDnfList_again F'
  have L := F.length_eq
  match gs, h, A, L, F' with
  | [g], h, A, L, F' =>
    have hg : g = r := by cases h; rfl
    subst hg
    refine ⟨by simpa [Ev.toDnfListL] using A, ?_⟩
    rw [L]
    have hc : ∀ es, g ≠ .or es := by
      rintro es rfl
      obtain ⟨cl, -, a1, a2⟩ := forall₂_mem_right F' (show Ev.or es ∈ [Ev.or es] by simp)
      · match cl, a1, a2 with
        | [x], a1, a2 => cases a2; exact (a1 (Ev.or es) (by simp)).elim
        | _ :: _ :: _, _, a2 => cases a2
    cases g with
    | or es => exact absurd rfl (hc es)
    | _ => rfl
  | a :: b :: l, h, A, L, F' =>
    cases h
    exact ⟨by rw [Ev.toDnfList]; exact A, by rw [L]; rfl⟩

/-- **C13 (again).** `to_dnf` of its own result is that result: the very same clauses, with the same comparisons in the same order. -/
theorem C13_again {e r : Ev} (hv : e.Valid) (h : e.toDnf = .ok r) : r.toDnf = .ok r := by
  have := (toDnf_list hv h).1
  rw [← h]
  simp [Ev.toDnf, this]

/-- **C13 (how many clauses).** The result has as many clauses as there are ways to choose one part of every disjunction: sums over disjunctions,
products over conjunctions, so exponentially many in the size of the event. -/
theorem C13_count {e r : Ev} (hv : e.Valid) (h : e.toDnf = .ok r) : r.clauses.length = e.choices := by
  rw [(toDnf_list hv h).2, Ev.length_toDnfList]

/-! ## Non-vacuity -/

/-- `(X << {'a'} | X << {'b'}) & (Y << {'a'} | Y << {'b'})` has four clauses. -/
example : (Ev.and [.or [nomE "X" "a", nomE "X" "b"], .or [nomE "Y" "a", nomE "Y" "b"]]).choices = 4 ∧
    ∃ r, (Ev.and [.or [nomE "X" "a", nomE "X" "b"], .or [nomE "Y" "a", nomE "Y" "b"]]).toDnf = .ok r ∧ r.clauses.length = 4 := by
  exact ⟨by simp [Ev.choices, Ev.choicesL, nomE], _, rfl, rfl⟩

end Sppl
