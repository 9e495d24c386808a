import Verif.Comp.Model
import Verif.Interp.Spec

/-!
# Specification of the compiler: what source programs mean

The meaning of expressions is given by `PE.eval`, that is Python, and not by the compiler; only `PE.TypedAt` mentions one of its functions.
-/

namespace Sppl
open Classical MeasureTheory
open scoped ENNReal ProbabilityTheory

/-! ## Tests -/

/-- The value of an object at an assignment. -/
noncomputable def Obj.at (ω : Asg) : Obj → Option (Val ℝ)
  | .tr t => t.eval ω
  | .int z => some (.num z)
  | .num x => some (.num x)
  | .str s => some (.str s)
  | _ => none

/-- Membership in a collection or a set. -/
def Obj.Has (ω : Asg) : Obj → Val ℝ → Prop
  | .coll vs, v => ∃ o ∈ vs, o.at ω = some v
  | .set S, v => v.lift ∈ S.den
  | _, _ => False

/-- A comparison of the values of two objects. -/
def CmpOp.Holds (ω : Asg) (l r : Obj) : CmpOp → Prop
  | .eq => ∃ v, l.at ω = some v ∧ r.at ω = some v
  | .ne => ∃ v w, l.at ω = some v ∧ r.at ω = some w ∧ v ≠ w
  | .lt => ∃ x y : ℝ, l.at ω = some (.num x) ∧ r.at ω = some (.num y) ∧ x < y
  | .le => ∃ x y : ℝ, l.at ω = some (.num x) ∧ r.at ω = some (.num y) ∧ x ≤ y
  | .gt => ∃ x y : ℝ, l.at ω = some (.num x) ∧ r.at ω = some (.num y) ∧ x > y
  | .ge => ∃ x y : ℝ, l.at ω = some (.num x) ∧ r.at ω = some (.num y) ∧ x ≥ y
  | .isIn => ∃ v, l.at ω = some v ∧ r.Has ω v
  | .notIn => ∃ v, l.at ω = some v ∧ ¬ r.Has ω v

/-- `l op r op r ...`: every link holds. -/
def ChainHolds (ω : Asg) : Obj → List CmpOp → List Obj → Prop
  | _, [], [] => True
  | l, op :: ops, r :: rs => op.Holds ω l r ∧ ChainHolds ω r ops rs
  | _, _, _ => False

mutual
/-- What a test says about an assignment. -/
def PE.Means (H : PyHost) (c : Ctx) (ρ : NS) (ω : Asg) : PE → Prop
  | .cmp l ops rs => ∃ v vs, l.eval H c ρ = .ok v ∧ PE.evalL H c ρ rs = .ok vs ∧ ChainHolds ω v ops vs
  | .bin .bitAnd p q => p.Means H c ρ ω ∧ q.Means H c ρ ω
  | .bin .bitOr p q => p.Means H c ρ ω ∨ q.Means H c ρ ω
  | .un .invert p => ¬ p.Means H c ρ ω
  | .un .not p => ¬ p.Means H c ρ ω
  | .boolOp true es => PE.MeansAll H c ρ ω es
  | .boolOp false es => PE.MeansAny H c ρ ω es
  | p => p.eval H c ρ = .ok (.bool true) ∨ ∃ e, p.eval H c ρ = .ok (.ev e) ∧ e.holds ω
/-- See `PE.Means`. -/
def PE.MeansAll (H : PyHost) (c : Ctx) (ρ : NS) (ω : Asg) : List PE → Prop
  | [] => True
  | p :: ps => p.Means H c ρ ω ∧ PE.MeansAll H c ρ ω ps
/-- See `PE.Means`. -/
def PE.MeansAny (H : PyHost) (c : Ctx) (ρ : NS) (ω : Asg) : List PE → Prop
  | [] => False
  | p :: ps => p.Means H c ρ ω ∨ PE.MeansAny H c ρ ω ps
end

/-- The assignments that satisfy a test. -/
def PE.sat (H : PyHost) (c : Ctx) (ρ : NS) (p : PE) : Set Asg := {ω | p.Means H c ρ ω}

mutual
/-- No `==`, `!=`, `in` or `not in`. -/
def PE.NoEq : PE → Prop
  | .cmp _ ops _ => ∀ op ∈ ops, op.isOrder = true
  | .host _ _ => True
  | .name _ => True
  | .lit _ => True
  | .sub _ i => i.NoEq
  | .set es => PE.NoEqL es
  | .bin _ l r => l.NoEq ∧ r.NoEq
  | .un _ e => e.NoEq
  | .boolOp _ es => PE.NoEqL es
  | .call _ args => PE.NoEqL args
  | .ifexp t a b => t.NoEq ∧ a.NoEq ∧ b.NoEq
/-- See `PE.NoEq`. -/
def PE.NoEqL : List PE → Prop
  | [] => True
  | e :: es => e.NoEq ∧ PE.NoEqL es
end

/-- Expressions that are not composed with `&`, `|`, `~`, `and`, `or`, `not` or comparisons. -/
def PE.isAtom : PE → Bool
  | .host _ _ | .name _ | .lit _ | .sub _ _ | .call _ _ | .bin .lshift _ _ => true
  | _ => false

/-- The tests that are covered: simple comparisons of an expression in the variables with something, combined with `&`, `|` and `~`, and events written in
other ways. Not covered: `and`, `or`, `not` and chains such as `0 < X < 1`. -/
inductive PE.Plain (H : PyHost) (c : Ctx) (ρ : NS) : PE → Prop
  | left {l op r t} : l.eval H c ρ = .ok (.tr t) → (∀ S, r.eval H c ρ = .ok (.set S) → S.WF) → PE.Plain H c ρ (.cmp l [op] [r])
  | right {l op r o x t} : op.isOrder = true → l.eval H c ρ = .ok o → o.num? = some x → r.eval H c ρ = .ok (.tr t) → PE.Plain H c ρ (.cmp l [op] [r])
  | and {p q} : PE.Plain H c ρ p → PE.Plain H c ρ q → PE.Plain H c ρ (.bin .bitAnd p q)
  | or {p q} : PE.Plain H c ρ p → PE.Plain H c ρ q → PE.Plain H c ρ (.bin .bitOr p q)
  | not {p} : PE.Plain H c ρ p → PE.Plain H c ρ (.un .invert p)
  | atom {p e} : p.NoEq → p.isAtom = true → p.eval H c ρ = .ok (.ev e) → e.Valid → PE.Plain H c ρ p

/-- The events of `l == r` and `l in r`. -/
noncomputable def memberEvent (H : PyHost) (c : Ctx) (ρ : NS) (l : PE) (op : CmpOp) (r : PE) : Res Obj :=
  (PE.bin .lshift l (match op with | .eq | .ne => .set [r] | _ => r)).eval H c ρ

/-- Every event in the test that is negated has expressions that are defined and of the right kind at the assignment (see `C07_not`). -/
inductive PE.TypedAt (H : PyHost) (c : Ctx) (ρ : NS) (ω : Asg) : PE → Prop
  | cmp {l op r} : (op = .ne ∨ op = .notIn → (∀ t, l.eval H c ρ = .ok (.tr t) → t.eval ω ≠ none) ∧ ∀ e, memberEvent H c ρ l op r = .ok (.ev e) → e.Typed ω) →
       PE.TypedAt H c ρ ω (.cmp l [op] [r])
  | and {p q} : PE.TypedAt H c ρ ω p → PE.TypedAt H c ρ ω q → PE.TypedAt H c ρ ω (.bin .bitAnd p q)
  | or {p q} : PE.TypedAt H c ρ ω p → PE.TypedAt H c ρ ω q → PE.TypedAt H c ρ ω (.bin .bitOr p q)
  | not {p} : PE.TypedAt H c ρ ω p → (∀ e, p.rewrite.eval H c ρ = .ok (.ev e) → e.Typed ω) → PE.TypedAt H c ρ ω (.un .invert p)
  | atom {p} : p.isAtom = true → PE.TypedAt H c ρ ω p

/-! ## Statements -/

/-- Either, as the set says. -/
noncomputable def choice (m : Measure Asg) (E : Set Asg) (f g : Measure Asg → Measure Asg) : Measure Asg := m E • f (m[|E]) + m Eᶜ • g (m[|Eᶜ])

/-- The variable that is assigned to. -/
noncomputable def Target.var (H : PyHost) (c : Ctx) (ρ : NS) : Target → Option String
  | .name x => some x
  | .sub x i =>
    match i.eval H c ρ with
    | .ok (.int z) => some s!"{x}[{z.toNat}]"
    | _ => none

/-- What an assignment does to a distribution: a variable with the given distribution, a variable defined by an expression, or, for arrays and constants,
nothing. -/
noncomputable def assignSem (H : PyHost) (c : Ctx) (ρ : NS) (μ : Dist → Measure ℝ) (target : Target) : PE → Measure Asg → Measure Asg
  | .ifexp t a b, m => choice m (t.sat H c ρ) (assignSem H c ρ μ target a) (assignSem H c ρ μ target b)
  | .call "array" _, m => m
  | e, m =>
    match target.var H c ρ, e.eval H c ρ with
    | some X, .ok (.dist d) => withIndep X (d.law μ X) m
    | some X, .ok (.tr t) => m.map (withVar X t)
    | _, _ => m

/-- The value of `t` is `v`, or in `v`. -/
def CaseHolds (ω : Asg) (t : Tr) : Obj → Prop
  | .set S => ∃ v, t.eval ω = some v ∧ v.lift ∈ S.den
  | o => ∃ v, t.eval ω = some v ∧ o.at ω = some v

/-- The names of the body of a `switch` for the `k`-th value: the value, and with `enumerate` the number of the value. -/
def NS.case (ρ : NS) (i : Option String) (x : String) (k : ℕ) (v : Obj) : NS := fun y =>
  if y = x then some v else if some y = i then some (.int k) else ρ y

/-- Each variable of the dictionary has its value; of a variable that is repeated the last value counts. -/
def ItemsHold (H : PyHost) (c : Ctx) (ρ : NS) : List (PE × PE) → Asg → Prop
  | [], _ => True
  | it :: items, ω => ((∀ it' ∈ items, it'.1.eval H c ρ ≠ it.1.eval H c ρ) →
      ∃ t o v, it.1.eval H c ρ = .ok (.tr t) ∧ it.2.eval H c ρ = .ok o ∧ t.eval ω = some v ∧ o.at ω = some v) ∧ ItemsHold H c ρ items ω

mutual
/-- What a statement does to a distribution over assignments; `ρ` has the constants, and the variables stand for themselves. -/
noncomputable def Stmt.sem (H : PyHost) (c : Ctx) (μ : Dist → Measure ℝ) (ρ : NS) : Stmt → Measure Asg → Measure Asg
  | .assign target e, m => assignSem H c ρ μ target e m
  | .ifs t b o, m => choice m (t.sat H c ρ) (Stmt.semL H c μ ρ b) (Stmt.semL H c μ ρ o)
  | .forr x n0 n1 body, m =>
    match n0.eval H c ρ, n1.eval H c ρ with
    | .ok (.int a), .ok (.int b) =>
      (List.range (b - a).toNat).foldl (fun m (k : ℕ) => Stmt.semL H c μ (ρ.bind x (.int (a + (k : ℤ)))) body m) m
    | _, _ => m
  | .switch i x sym vals body, m =>
    match sym.eval H c ρ, vals.eval H c ρ with
    | .ok (.tr t), .ok (.coll vs) =>
      branches m (firsts ∅ (vs.map (fun v => {ω | CaseHolds ω t v}))) (vs.zipIdx.map (fun v => Stmt.semL H c μ (ρ.case i x v.2 v.1) body))
    | _, _ => m
  | .condition e, m => m[|e.sat H c ρ]
  | .constrain items, m => m[|{ω | ItemsHold H c ρ items ω}]
  | .call _ _, m => m
  | .other _, m => m
  | .pass, m => m
/-- One after the other. -/
noncomputable def Stmt.semL (H : PyHost) (c : Ctx) (μ : Dist → Measure ℝ) (ρ : NS) : List Stmt → Measure Asg → Measure Asg
  | [], m => m
  | s :: ss, m => Stmt.semL H c μ ρ ss (Stmt.sem H c μ ρ s m)
end

/-- A test that is covered, almost surely typed. -/
structure TestOK (H : PyHost) (c : Ctx) (ρ : NS) (m : Measure Asg) (t : PE) : Prop where
  plain : t.Plain H c ρ
  typed : ∀ᵐ ω ∂m, t.TypedAt H c ρ ω

/-- The assignments that are covered: comparisons in conditional expressions as above, no `==` in other values, distributions of total mass one. -/
def AssignSafe (H : PyHost) (c : Ctx) (L : Lib) (μ : Dist → Measure ℝ) (ρ : NS) : PE → Measure Asg → Prop
  | .ifexp t a b, m => TestOK H c ρ m t ∧ AssignSafe H c L μ ρ a (m[|t.sat H c ρ]) ∧ AssignSafe H c L μ ρ b (m[|(t.sat H c ρ)ᶜ])
  | e, _ => e.NoEq ∧ ∀ d, e.eval H c ρ = .ok (.dist d) → d.WF L μ

mutual
/-- The programs that are covered; an `if` without `else` has tests that almost surely cover all cases.  Nothing is claimed of the calls of other functions (see `C46_calls_ignored`) and of
statements that are not in the language (see `C46_other_wrong`). -/
def Stmt.Safe (H : PyHost) (c : Ctx) (L : Lib) (μ : Dist → Measure ℝ) (ρ : NS) : Stmt → Measure Asg → Prop
  | .assign _ e, m => AssignSafe H c L μ ρ e m
  | .ifs t b o, m => TestOK H c ρ m t ∧ Stmt.SafeL H c L μ ρ b (m[|t.sat H c ρ]) ∧ Stmt.SafeL H c L μ ρ o (m[|(t.sat H c ρ)ᶜ]) ∧
      (o = [] → m (t.sat H c ρ)ᶜ = 0)
  | .forr x n0 n1 body, m => ∀ a b : ℤ, n0.eval H c ρ = .ok (.int a) → n1.eval H c ρ = .ok (.int b) → ∀ k : ℕ, k < (b - a).toNat →
      Stmt.SafeL H c L μ (ρ.bind x (.int (a + (k : ℤ)))) body
        ((List.range k).foldl (fun m (k : ℕ) => Stmt.semL H c μ (ρ.bind x (.int (a + (k : ℤ)))) body m) m)
  | .switch i x sym vals body, m => ∀ t vs, sym.eval H c ρ = .ok (.tr t) → vals.eval H c ρ = .ok (.coll vs) →
      ∀ (k : ℕ) v, vs[k]? = some v → ∀ E, (firsts ∅ (vs.map (fun v => {ω | CaseHolds ω t v})))[k]? = some E →
        Stmt.SafeL H c L μ (ρ.case i x k v) body (m[|E])
  | .condition e, m => TestOK H c ρ m e
  | .constrain _, _ => True
  | .call _ _, _ => False
  | .other _, _ => False
  | .pass, _ => True
/-- See `Stmt.Safe`. -/
def Stmt.SafeL (H : PyHost) (c : Ctx) (L : Lib) (μ : Dist → Measure ℝ) (ρ : NS) : List Stmt → Measure Asg → Prop
  | [], _ => True
  | s :: ss, m => Stmt.Safe H c L μ ρ s m ∧ Stmt.SafeL H c L μ ρ ss (Stmt.sem H c μ ρ s m)
end

/-- Variables stand for themselves, and the elements of arrays for the variables with their names. -/
structure NS.Canonical (ρ : NS) : Prop where
  name : ∀ x X, ρ x = some (.tr (.id X)) → X = x
  elem : ∀ x vs (i : ℕ) X, ρ x = some (.coll vs) → vs[i]? = some (.tr (.id X)) → X = s!"{x}[{i}]"

/-- Not an expression in the variables, nor a collection of such. -/
def Obj.Closed (o : Obj) : Prop := (∀ t, o ≠ .tr t) ∧ ∀ vs, o = .coll vs → ∀ v ∈ vs, ∀ t, v ≠ .tr t

/-- No name stands for an expression in the variables. -/
def NS.Closed (ρ : NS) : Prop := ∀ x o, ρ x = some o → o.Closed

/-- A constant: not a distribution, and not an expression in the variables. -/
def PE.IsConst (H : PyHost) (c : Ctx) (ρ : NS) (e : PE) : Prop := ∀ o, e.eval H c ρ = .ok o → (∀ d, o ≠ .dist d) ∧ ∀ t, o ≠ .tr t

/-! ## First match -/

/-- How a program with states in `S` runs: `test` decides tests, `act` runs statements without parts. -/
structure Machine (S : Type) where
  test : PE → S → Bool
  act : Stmt → S → S

mutual
/-- Running a statement: `if` runs one of its two bodies. -/
def Machine.exec {S : Type} (M : Machine S) : Stmt → S → S
  | .ifs t b o, σ => if M.test t σ = true then M.execL b σ else M.execL o σ
  | s, σ => M.act s σ
/-- See `Machine.exec`. -/
def Machine.execL {S : Type} (M : Machine S) : List Stmt → S → S
  | [], σ => σ
  | s :: ss, σ => M.execL ss (M.exec s σ)
end

/-- Running the first branch whose test succeeds. -/
def Machine.first {S : Type} (M : Machine S) : List (PE × List Stmt) → S → S
  | [], σ => σ
  | (t, b) :: bs, σ => if M.test t σ = true then M.execL b σ else M.first bs σ

end Sppl
