import Verif.Comp.Spec

/-!
# Specification of the compiler: the programs that compile and run
-/

namespace Sppl
open Classical

/-- Where a statement is: inside a `for`, after the first branch of an `if`, at the top. -/
structure Place where
  loop : Bool
  later : Bool
  top : Bool

/-- What a program has introduced so far: constants, variables (with the lengths of arrays), and whether it has used a distribution. -/
structure Decl where
  constants : List (Target × PE)
  vars : List (String × VarKind)
  random : Bool

/-- The target of a random assignment: a new variable, not in a loop; in the later branches of an `if`, a variable of an earlier branch; or an element of an
array. -/
inductive Introduces (p : Place) (d : Decl) : Target → List (String × VarKind) → Prop
  | fresh {x} : p.loop = false → p.later = false → d.vars.lookup x = none → Introduces p d (.name x) (d.vars ++ [(x, .scalar)])
  | again {x k} : p.loop = false → p.later = true → d.vars.lookup x = some k → Introduces p d (.name x) d.vars
  | elem {x i n} : d.vars.lookup x = some (.array n) → Introduces p d (.sub x i) d.vars

/-- The expression is a random variable. -/
def PE.IsVar (H : PyHost) (c : Ctx) (ρ : NS) (e : PE) : Prop := ∃ X, e.eval H c ρ = .ok (.tr (.id X))

/-- The expression, written as in the compiled module, is an event. -/
def PE.IsEvent (H : PyHost) (c : Ctx) (ρ : NS) (e : PE) : Prop := ∃ v, e.rewrite.eval H c ρ = .ok (.ev v)

/-- The parts of a program. -/
inductive Work
  | stmt (s : Stmt)
  /-- The statements of a list. -/
  | chain (l : List Stmt)
  /-- The body of a compound statement. -/
  | body (l : List Stmt)
  /-- What comes after the first branch of an `if`. -/
  | rest (o : List Stmt)
  /-- What comes after the first branch of a conditional expression that is assigned. -/
  | alt (target : Target) (e : PE)

/-- The body of a loop is run with the names of `R` and the loop variable. -/
def loopNames (H : PyHost) (c : Ctx) (R : NS → Prop) (x : String) (n0 n1 : PE) (ρ' : NS) : Prop :=
  ∃ ρ, R ρ ∧ ∃ a b : ℤ, n0.eval H c ρ = .ok (.int a) ∧ n1.eval H c ρ = .ok (.int b) ∧ ∃ i, a ≤ i ∧ i < b ∧ ρ' = ρ.bind x (.int i)

/-- The body of a `switch` is run with the names of `R` and one of the values, and its number with `enumerate`. -/
def caseNames (H : PyHost) (c : Ctx) (R : NS → Prop) (i : Option String) (x : String) (vals : PE) (ρ' : NS) : Prop :=
  ∃ ρ, R ρ ∧ ∃ vs, vals.eval H c ρ = .ok (.coll vs) ∧ ∃ (k : ℕ) (v : Obj), vs[k]? = some v ∧ ρ' = ρ.case i x k v

/-- The items of `constrain`: variables, and numbers or strings. -/
def IsItem (H : PyHost) (c : Ctx) (ρ : NS) (it : PE × PE) : Prop :=
  it.1.IsVar H c ρ ∧ ∃ o, it.2.eval H c ρ = .ok o ∧ ((∃ s, o = .str s) ∨ ∃ y, o.num? = some y)

/-- The programs that compile and run.  `Good D H c p R d w d'`: with the distributions `D`, in the place `p`, where the names may stand for what `R` allows and `d` has
been introduced, `w` can be compiled, introduces `d'`, and its expressions have values of the right kinds. -/
inductive Good (D : List String) (H : PyHost) (c : Ctx) : Place → (NS → Prop) → Decl → Work → Decl → Prop
  /-- `X ~= f(...)` with a distribution `f`. -/
  | sample {p R d target f args vars} : f ∈ D → f ≠ "array" → Introduces p d target vars → (PE.call f args).NoEq →
      (∀ ρ, R ρ → target.expr.IsVar H c ρ ∧ ∃ s, (PE.call f args).eval H c ρ = .ok (.dist s)) →
      Good D H c p R d (.stmt (.assign target (.call f args))) ⟨d.constants, vars, true⟩
  /-- `X ~= d1 | d2`. -/
  | mixture {p R d target l r vars} : (∃ f ∈ (PE.bin .bitOr l r).names, f ∈ D) → Introduces p d target vars → (PE.bin .bitOr l r).NoEq →
      (∀ ρ, R ρ → target.expr.IsVar H c ρ ∧ ∃ s, (PE.bin .bitOr l r).eval H c ρ = .ok (.dist s)) →
      Good D H c p R d (.stmt (.assign target (.bin .bitOr l r))) ⟨d.constants, vars, true⟩
  /-- `Y ~= e` with variables in `e`. -/
  | transform {p R d target e vars} : (∀ t a b, e ≠ .ifexp t a b) → (∀ as, e ≠ .call "array" as) → (∀ x ∈ e.names, x ∉ D) →
      (∃ x ∈ e.names, (d.vars.lookup x).isSome) → Introduces p d target vars → e.NoEq →
      (∀ ρ, R ρ → target.expr.IsVar H c ρ ∧ ∃ t, e.eval H c ρ = .ok (.tr t)) →
      Good D H c p R d (.stmt (.assign target e)) ⟨d.constants, vars, d.random⟩
  /-- `x = e` without variables, before the first distribution. -/
  | const {p R d target e} : (∀ t a b, e ≠ .ifexp t a b) → (∀ as, e ≠ .call "array" as) → (∀ x ∈ e.names, x ∉ D ∧ d.vars.lookup x = none) → p.top = true → d.random = false →
      (target, e) ∉ d.constants → Good D H c p R d (.stmt (.assign target e)) ⟨d.constants ++ [(target, e)], d.vars, d.random⟩
  /-- `A = array(n)`. -/
  | array {p R d x n} : (∀ y ∈ (PE.call "array" [n]).names, y ∉ D) → p.top = true → d.vars.lookup x = none →
      Good D H c p R d (.stmt (.assign (.name x) (.call "array" [n]))) ⟨d.constants, d.vars ++ [(x, .array n)], d.random⟩
  /-- `X ~= a if t else e`. -/
  | ifexp {p R d target t a e d1 d2} : (∀ ρ, R ρ → t.IsEvent H c ρ) → Good D H c { p with top := false } R d (.body [.assign target a]) d1 →
      Good D H c { p with later := true, top := false } R d1 (.alt target e) d2 → Good D H c p R d (.stmt (.assign target (.ifexp t a e))) d2
  | altLeaf {p R d target e d'} : (∀ t a b, e ≠ .ifexp t a b) → Good D H c p R d (.body [.assign target e]) d' → Good D H c p R d (.alt target e) d'
  | altIf {p R d target t a e d1 d2} : (∀ ρ, R ρ → t.IsEvent H c ρ) → Good D H c p R d (.body [.assign target a]) d1 → Good D H c p R d1 (.alt target e) d2 →
      Good D H c p R d (.alt target (.ifexp t a e)) d2
  /-- `if t: b`, `elif ...`, `else: ...`. -/
  | ifs {p R d t b o d1 d2} : (∀ ρ, R ρ → t.IsEvent H c ρ) → o ≠ [] → Good D H c { p with top := false } R d (.body b) d1 →
      Good D H c { p with later := true, top := false } R d1 (.rest o) d2 → Good D H c p R d (.stmt (.ifs t b o)) d2
  | restNone {p R d} : Good D H c p R d (.rest []) d
  | restElif {p R d t b o d1 d2} : (∀ ρ, R ρ → t.IsEvent H c ρ) → Good D H c p R d (.body b) d1 → Good D H c p R d1 (.rest o) d2 →
      Good D H c p R d (.rest [.ifs t b o]) d2
  | restElse {p R d o d'} : (∀ t b o', o ≠ [.ifs t b o']) → Good D H c p R d (.body o) d' → Good D H c p R d (.rest o) d'
  /-- `for x in range(n0, n1): body`. -/
  | forr {p R d x n0 n1 body d'} : (∀ ρ, R ρ → (∃ a, n0.eval H c ρ = .ok (.int a)) ∧ ∃ b, n1.eval H c ρ = .ok (.int b)) →
      Good D H c { p with loop := true, top := false } (loopNames H c R x n0 n1) d (.body body) d' → Good D H c p R d (.stmt (.forr x n0 n1 body)) d'
  /-- `switch e cases (x in values): body`. -/
  | switch {p R d i x sym vals body d'} : (∀ ρ, R ρ → (∃ t, sym.eval H c ρ = .ok (.tr t)) ∧ ∃ vs, vals.eval H c ρ = .ok (.coll vs) ∧ ∀ v ∈ vs, (∃ S, v = .set S) ∨ (∃ s, v = .str s) ∨ ∃ y, v.num? = some y) →
      Good D H c { p with top := false } (caseNames H c R i x vals) d (.body body) d' → Good D H c p R d (.stmt (.switch i x sym vals body)) d'
  | condition {p R d e} : (∀ ρ, R ρ → e.IsEvent H c ρ) → Good D H c p R d (.stmt (.condition e)) d
  | constrain {p R d items} : (∀ ρ, R ρ → ∀ it ∈ items, IsItem H c ρ it) → Good D H c p R d (.stmt (.constrain items)) d
  | pass {p R d} : Good D H c p R d (.stmt .pass) d
  | nil {p R d} : Good D H c p R d (.chain []) d
  | cons {p R d s l d1 d2} : Good D H c p R d (.stmt s) d1 → Good D H c p R d1 (.chain l) d2 → Good D H c p R d (.chain (s :: l)) d2
  /-- A body is not empty, and not just `pass`. -/
  | body {p R d l d'} : l ≠ [] → l ≠ [.pass] → Good D H c p R d (.chain l) d' → Good D H c p R d (.body l) d'

/-- The names of the variables. -/
def Decl.scalars (d : Decl) : List String := (d.vars.filter (fun p => match p.2 with | .scalar => true | .array _ => false)).map Prod.fst

/-- The names and the lengths of the arrays. -/
def Decl.arrays (d : Decl) : List (String × PE) := d.vars.flatMap (fun p => match p.2 with | .scalar => [] | .array n => [(p.1, n)])

/-- The source of a program compiles and runs with the names `ρ`, and introduces `d`. -/
def GoodProgram (D : List String) (H : PyHost) (c : Ctx) (ρ : NS) (source : List Stmt) (d : Decl) : Prop :=
  Good D H c ⟨false, false, true⟩ (fun ρ' => ρ' = ρ) ⟨[], [], false⟩ (.chain source) d

end Sppl
