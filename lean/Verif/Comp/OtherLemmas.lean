import Verif.Comp.CallProps

set_option linter.all false

/-!
# The visitor keeps `first`, and more depth does not change what it gives
-/

namespace Sppl

theorem visitItems_keeps {α : Type} {P : VS → Prop} {f : α → VS → Res (List Tgt × VS)} (hf : ∀ x st r, P st → f x st = .ok r → P r.2) :
    ∀ (l : List α) (st : VS) (r : List Tgt × VS), P st → visitItems f l st = .ok r → P r.2 := by
  intro l
  induction l with
  | nil => intro st r h e; simp only [visitItems] at e; injection e with e; subst e; exact h
  | cons x xs ih =>
    intro st r h e
    simp only [visitItems, bind, Except.bind] at e
    split at e; · cases e
    rename_i a ha
    split at e; · cases e
    rename_i b hb
    injection e with e; subst e
    exact ih _ b (hf _ _ _ h ha) hb

theorem visitModule_first {f : Stmt → VS → Res (List Tgt × VS)} (hf : ∀ x st r, st.first = false → f x st = .ok r → r.2.first = false) {l : List Stmt} {st : VS}
    {r : List Tgt × VS} (e : visitModule f l st = .ok r) : r.2.first = false := by
  simp only [visitModule, bind, Except.bind] at e
  split at e; · cases e
  rename_i a ha
  injection e with e; subst e
  exact visitItems_keeps (P := fun st => st.first = false) hf l _ a rfl ha

theorem declare_first {ctx : List String} {t : Target} {st st' : VS} (h : st.first = false) (e : declare ctx t st = .ok st') : st'.first = false := by
  unfold declare at e
  repeat' split at e
  all_goals first | (cases e; done) | (injection e with e; subst e; exact h)

theorem visitRandom_first {ctx : List String} {b : Bool} {t : Target} {v : PE} {st : VS} {r : List Tgt × VS} (h : st.first = false)
    (e : visitRandom ctx b t v st = .ok r) : r.2.first = false := by
  simp only [visitRandom, bind, Except.bind] at e
  split at e; · cases e
  rename_i st' hd
  injection e with e; subst e
  exact declare_first h hd

theorem visitAssign_first {D ctx : List String} {t : Target} {v : PE} {st : VS} {r : List Tgt × VS} (h : st.first = false)
    (e : visitAssign D ctx t v st = .ok r) : r.2.first = false := by
  unfold visitAssign at e
  simp only at e
  split at e
  · unfold visitArray at e
    repeat' split at e
    all_goals first | (cases e; done) | (injection e with e; subst e; exact h)
  · split at e
    · repeat' split at e
      all_goals first | (cases e; done) | (refine visitRandom_first ?_ e; exact h)
    · split at e
      · refine visitRandom_first ?_ e; exact h
      · unfold visitPy at e
        repeat' split at e
        all_goals first | (cases e; done) | (injection e with e; subst e; exact h)

theorem visitBranches_first {block : List String → List Stmt → VS → Res (List Tgt × VS)} {ctx : List String}
    (hb : ∀ ctx l st r, st.first = false → block ctx l st = .ok r → r.2.first = false) : ∀ (bs : List (PE × List Stmt)) (first : Bool) (st : VS) (r : List Tgt × VS),
    st.first = false → visitBranches block ctx first bs st = .ok r → r.2.first = false := by
  intro bs
  induction bs with
  | nil => intro first st r h e; simp only [visitBranches] at e; injection e with e; subst e; exact h
  | cons p bs ih =>
    intro first st r h e
    simp only [visitBranches, bind, Except.bind] at e
    split at e; · cases e
    rename_i a ha
    split at e; · cases e
    rename_i b hb'
    injection e with e; subst e
    exact ih _ _ b (hb _ _ _ _ h ha) hb'

theorem visit_first (D : List String) : ∀ (n : ℕ) (ctx : List String) (s : Stmt) (st : VS) (r : List Tgt × VS), st.first = false → visit D n ctx s st = .ok r →
    r.2.first = false := by
  intro n
  induction n with
  | zero => intro ctx s st r h e; simp only [visit] at e; cases e
  | succ n ih =>
    intro ctx s st r h e
    cases s with
    | assign t v =>
      by_cases hi : ∃ c a b, v = .ifexp c a b
      · obtain ⟨c, a, b, rfl⟩ := hi
        simp only [visit] at e
        exact ih _ _ _ _ h e
      · have : visit D (n + 1) ctx (.assign t v) st = visitAssign D ctx t v st := by
          cases v <;> first | rfl | exact absurd ⟨_, _, _, rfl⟩ hi
        rw [this] at e
        exact visitAssign_first h e
    | ifs t b o =>
      simp only [visit] at e
      split at e; · cases e
      simp only [bind, Except.bind] at e
      split at e; · cases e
      rename_i a ha
      injection e with e; subst e
      exact visitBranches_first (fun ctx l st r _ e => visitModule_first (ih ctx) e) _ _ _ a h ha
    | forr x n0 n1 body =>
      simp only [visit, bind, Except.bind] at e
      split at e; · cases e
      rename_i a ha
      injection e with e; subst e
      exact visitModule_first (r := a) (ih _) ha
    | switch i x sy vs body =>
      simp only [visit, bind, Except.bind] at e
      split at e; · cases e
      rename_i a ha
      injection e with e; subst e
      exact visitModule_first (r := a) (ih _) ha
    | condition e' => simp only [visit] at e; injection e with e; subst e; exact h
    | constrain items => simp only [visit] at e; injection e with e; subst e; exact h
    | call f args =>
      simp only [visit] at e
      split at e; · cases e
      injection e with e; subst e; exact h
    | other body => simp only [visit] at e; exact visitModule_first (ih _) e
    | pass => simp only [visit] at e; injection e with e; subst e; exact h

/-! ## More depth -/

theorem visitItems_more {α : Type} {f g : α → VS → Res (List Tgt × VS)} (hf : ∀ x st r, f x st = .ok r → g x st = .ok r) :
    ∀ (l : List α) (st : VS) (r : List Tgt × VS), visitItems f l st = .ok r → visitItems g l st = .ok r := by
  intro l
  induction l with
  | nil => intro st r e; exact e
  | cons x xs ih =>
    intro st r e
    simp only [visitItems, bind, Except.bind] at e ⊢
    split at e; · cases e
    rename_i a ha
    split at e; · cases e
    rename_i b hb
    rw [hf _ _ _ ha]
    simp only
    rw [ih _ _ hb]
    exact e

theorem visitModule_more {f g : Stmt → VS → Res (List Tgt × VS)} (hf : ∀ x st r, f x st = .ok r → g x st = .ok r) {l : List Stmt} {st : VS} {r : List Tgt × VS}
    (e : visitModule f l st = .ok r) : visitModule g l st = .ok r := by
  simp only [visitModule, bind, Except.bind] at e ⊢
  split at e; · cases e
  rename_i a ha
  rw [visitItems_more hf _ _ _ ha]
  exact e

theorem visitBranches_more {f g : List String → List Stmt → VS → Res (List Tgt × VS)} {ctx : List String} (hf : ∀ ctx l st r, f ctx l st = .ok r → g ctx l st = .ok r) :
    ∀ (bs : List (PE × List Stmt)) (first : Bool) (st : VS) (r : List Tgt × VS), visitBranches f ctx first bs st = .ok r → visitBranches g ctx first bs st = .ok r := by
  intro bs
  induction bs with
  | nil => intro first st r e; exact e
  | cons p bs ih =>
    intro first st r e
    simp only [visitBranches, bind, Except.bind] at e ⊢
    split at e; · cases e
    rename_i a ha
    split at e; · cases e
    rename_i b hb
    rw [hf _ _ _ _ ha]
    simp only
    rw [ih _ _ _ hb]
    exact e

theorem visit_more (D : List String) : ∀ (n : ℕ) (ctx : List String) (s : Stmt) (st : VS) (r : List Tgt × VS), visit D n ctx s st = .ok r → visit D (n + 1) ctx s st = .ok r := by
  intro n
  induction n with
  | zero => intro ctx s st r e; simp only [visit] at e; cases e
  | succ n ih =>
    intro ctx s st r e
    cases s with
    | assign t v =>
      by_cases hi : ∃ c a b, v = .ifexp c a b
      · obtain ⟨c, a, b, rfl⟩ := hi
        rw [visit] at e ⊢
        exact ih _ _ _ _ e
      · have : ∀ n, visit D (n + 1) ctx (.assign t v) st = visitAssign D ctx t v st := by
          intro n; cases v <;> first | rfl | exact absurd ⟨_, _, _, rfl⟩ hi
        rw [this] at e ⊢
        exact e
    | ifs t b o =>
      rw [visit] at e ⊢
      simp only [bind, Except.bind] at e ⊢
      split at e; · cases e
      rename_i hl
      rw [if_neg hl]
      split at e; · cases e
      rename_i a ha
      rw [visitBranches_more (fun ctx l st r e => visitModule_more (ih ctx) e) _ _ _ _ ha]
      exact e
    | forr x n0 n1 body =>
      rw [visit] at e ⊢
      simp only [bind, Except.bind] at e ⊢
      split at e; · cases e
      rename_i a ha
      rw [visitModule_more (ih _) ha]
      exact e
    | switch i x sy vs body =>
      rw [visit] at e ⊢
      simp only [bind, Except.bind] at e ⊢
      split at e; · cases e
      rename_i a ha
      rw [visitModule_more (ih _) ha]
      exact e
    | condition e' => rw [visit] at e ⊢; exact e
    | constrain items => rw [visit] at e ⊢; exact e
    | call f args => rw [visit] at e ⊢; exact e
    | other body => rw [visit] at e ⊢; exact visitModule_more (ih _) e
    | pass => rw [visit] at e ⊢; exact e

/-- The depth only bounds the recursion: a program that is compiled is compiled alike with every greater depth. -/
theorem compile_more {D : List String} {n m : ℕ} {source : List Stmt} {p : Prog} (h : compile D n source = .ok p) (hm : n ≤ m) : compile D m source = .ok p := by
  induction hm with
  | refl => exact h
  | step _ ih =>
    simp only [compile, bind, Except.bind] at ih ⊢
    split at ih; · cases ih
    rename_i a ha
    rw [visitModule_more (visit_more D _ _) ha]
    exact ih

end Sppl
