import Verif.Comp.OtherLemmas

set_option linter.all false

/-!
# C46: statements that are not in the language

`while`, `assert`, `X += 1` and `X: float = norm()` have no visitor method: the generic one goes through their parts.
-/

namespace Sppl
open Classical MeasureTheory
open scoped ENNReal ProbabilityTheory

theorem visitItems_agree {D : List String} {n : ℕ} {ctx : List String} {l l' : List Stmt}
    (h : ∀ st, st.first = false → visitItems (visit D n ctx) l st = visitItems (visit D n ctx) l' st) (l1 : List Stmt) (st : VS) (hst : st.first = false) :
    visitItems (visit D n ctx) (l1 ++ l) st = visitItems (visit D n ctx) (l1 ++ l') st := by
  rw [visitItems_append, visitItems_append]
  simp only [bind, Except.bind]
  cases e : visitItems (visit D n ctx) l1 st with
  | error x => rfl
  | ok a =>
    simp only
    rw [h _ (visitItems_keeps (P := fun st => st.first = false) (visit_first D n ctx) _ _ _ hst e)]

/-- C46: an `assert`, an augmented assignment or an annotated assignment is left out of the compiled module, without an error, wherever it is at the top of a program: after `X ~= norm()`,
`X += 1` does not change `X`, and `Y: float = norm()` does not define `Y`. -/
theorem C46_other_ignored (D : List String) (l1 l2 : List Stmt) {n : ℕ} (hn : 1 ≤ n) : compile D n (l1 ++ .other [] :: l2) = compile D n (l1 ++ l2) := by
  obtain ⟨n, rfl⟩ := Nat.exists_eq_add_of_le' hn
  have e : visitItems (visit D (n + 1) ["global"]) (l1 ++ .other [] :: l2) ⟨false, [], [], []⟩ = visitItems (visit D (n + 1) ["global"]) (l1 ++ l2) ⟨false, [], [], []⟩ := by
    refine visitItems_agree (fun st hst => ?_) l1 _ rfl
    have hv : visit D (n + 1) ["global"] (.other []) st = .ok ([], st) := by
      cases st; simp only at hst; subst hst
      simp [visit, visitModule, visitItems, sequenceBlock, bind, Except.bind]
    simp only [visitItems, hv, bind, Except.bind]
    cases visitItems (visit D (n + 1) ["global"]) l2 st <;> rfl
  simp only [compile, visitModule, e, Bool.or_true]

/-- C46: a `while` is compiled as its body, once, whatever its test is: the module of `while T: s` is the module of `s`. -/
theorem C46_while_once {D : List String} {n : ℕ} {l1 l2 : List Stmt} {s : Stmt} {p : Prog} (h : compile D n (l1 ++ s :: l2) = .ok p) :
    compile D (n + 1) (l1 ++ .other [s] :: l2) = .ok p := by
  have hv : ∀ st r, st.first = false → visit D n ["global"] s st = .ok r → visit D (n + 1) ["global"] (.other [s]) st = .ok r := by
    intro st r hst e
    cases st; simp only at hst; subst hst
    simp [visit, visitModule, visitItems, sequenceBlock, bind, Except.bind, e]
  simp only [compile, visitModule, bind, Except.bind, Bool.or_true] at h ⊢
  cases e : visitItems (visit D n ["global"]) (l1 ++ s :: l2) ⟨false, [], [], []⟩ with
  | error x => rw [e] at h; cases h
  | ok a =>
    rw [e] at h
    rw [visitItems_append] at e
    simp only [bind, Except.bind] at e
    split at e; · cases e
    rename_i b hb
    have hf := visitItems_keeps (P := fun st => st.first = false) (visit_first D n ["global"]) _ _ _ rfl hb
    simp only [visitItems, bind, Except.bind] at e
    split at e; · cases e
    rename_i b' hb'
    split at hb'; · cases hb'
    rename_i d hd
    split at hb'; · cases hb'
    rename_i d' hd'
    injection hb' with hb'; subst hb'
    injection e with e; subst e
    rw [visitItems_append]
    simp only [visitItems, bind, Except.bind, visitItems_more (visit_more D n ["global"]) _ _ _ hb, hv _ _ hf hd, visitItems_more (visit_more D n ["global"]) _ _ _ hd']
    exact h

/-- `X ~= uniform()`; `while False: condition(X < 1)`; `X += 1`. -/
noncomputable def source5 : List Stmt := [.assign (.name "X") (.call "uniform" []), .other [.condition ltX], .other []]

/-- C46: so `while` and `+=` are neither run nor refused: the program whose test never holds conditions on `X < 1`, and the one that adds to `X` leaves it. -/
theorem C46_other_wrong : ∃ p e, (∀ n, 2 ≤ n → compile ["uniform"] n source5 = .ok p) ∧
    p.run pyHost0 ctx0 ns0 = .ok (.seq [.sample "X" (.one (.real .cont d0 unitIvl)), .condition e]) := by
  obtain ⟨p, q, hp, -, e, hr, -⟩ := C46_calls_wrong
  refine ⟨p, e, fun n hn => ?_, hr⟩
  obtain ⟨n, rfl⟩ := Nat.exists_eq_add_of_le' (le_trans (by norm_num) hn : 1 ≤ n)
  have := C46_other_ignored ["uniform"] [.assign (.name "X") (.call "uniform" []), .other [.condition ltX]] [] (n := n + 1) (by omega)
  simp only [List.cons_append, List.nil_append] at this
  rw [source5, this]
  exact C46_while_once (l1 := [.assign (.name "X") (.call "uniform" [])]) (l2 := []) (hp n (by omega))

end Sppl
