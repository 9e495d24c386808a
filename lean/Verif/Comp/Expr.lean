import Verif.Interp.Model

/-!
# Model of `/repo/src/compilers/sppl_to_python.py`: expressions

The Python `ast` of the expressions of a program, the rewriting of comparisons, and how Python evaluates the expressions that the compiler writes.
-/

namespace Sppl
open Classical

/-- The Python objects that the expressions of a program can have as values. -/
inductive Obj
  | tr (t : Tr)
  | ev (e : Ev)
  | int (z : ℤ)
  | num (x : ℝ)
  | str (s : String)
  | bool (b : Bool)
  | set (S : SSet EReal)
  | coll (vs : List Obj)
  | dist (d : Source)
  | other (k : ℕ)

/-- The names that are bound while the compiled module runs. -/
abbrev NS := String → Option Obj

/-- A namespace with one more name. -/
def NS.bind (ρ : NS) (x : String) (o : Obj) : NS := fun y => if y = x then some o else ρ y

/-- The comparisons (`ast.cmpop`, without `is`). -/
inductive CmpOp
  | eq | ne | lt | le | gt | ge | isIn | notIn
deriving DecidableEq

/-- The binary operators (`ast.operator`); all but three are left to the host. -/
inductive BinOp
  | bitAnd | bitOr | lshift | other (op : String)
deriving DecidableEq

/-- The unary operators (`ast.unaryop`). -/
inductive UnOp
  | invert | not | other (op : String)
deriving DecidableEq

/-- Expressions (`ast.expr`).  `host` stands for any other expression that contains no comparison: it is given by the names in it and by what Python makes
of it.  Keywords of calls are left out, and the functions that are called are names. -/
inductive PE
  | host (names : List String) (run : NS → Res Obj)
  | name (x : String)
  | lit (o : Obj)
  | sub (x : String) (i : PE)
  | set (es : List PE)
  | cmp (l : PE) (ops : List CmpOp) (rs : List PE)
  | bin (op : BinOp) (l r : PE)
  | un (op : UnOp) (e : PE)
  | boolOp (isAnd : Bool) (es : List PE)
  | call (f : String) (args : List PE)
  | ifexp (test body orelse : PE)

/-- `True`. -/
def PE.yes : PE := .lit (.bool true)

mutual
/-- sppl_to_python.py 324-334 `SPPL_Visitor_Name`: the names in an expression. -/
def PE.names : PE → List String
  | .host ns _ => ns
  | .name x => [x]
  | .lit _ => []
  | .sub x i => x :: i.names
  | .set es => PE.namesL es
  | .cmp l _ rs => l.names ++ PE.namesL rs
  | .bin _ l r => l.names ++ r.names
  | .un _ e => e.names
  | .boolOp _ es => PE.namesL es
  | .call f args => f :: PE.namesL args
  | .ifexp t a b => t.names ++ a.names ++ b.names
/-- See `PE.names`. -/
def PE.namesL : List PE → List String
  | [] => []
  | e :: es => e.names ++ PE.namesL es
end

/-- sppl_to_python.py 296-322 `SPPL_Transformer_Compare.visit_Compare`. -/
def rewriteCmp (l : PE) (ops : List CmpOp) (rs : List PE) : PE :=
  match ops, rs with
  | [.isIn], r :: _ => .bin .lshift l r
  | [.eq], rs => .bin .lshift l (.set rs)
  | [.notIn], r :: _ => .un .invert (.bin .lshift l r)
  | [.ne], rs => .un .invert (.bin .lshift l (.set rs))
  | ops, rs => .cmp l ops rs

mutual
/-- sppl_to_python.py 295-322 `SPPL_Transformer_Compare.visit`: the visitor goes through every expression, but not into the parts of a comparison. -/
def PE.rewrite : PE → PE
  | .cmp l ops rs => rewriteCmp l ops rs
  | .host ns f => .host ns f
  | .name x => .name x
  | .lit o => .lit o
  | .sub x i => .sub x i.rewrite
  | .set es => .set (PE.rewriteL es)
  | .bin op l r => .bin op l.rewrite r.rewrite
  | .un op e => .un op e.rewrite
  | .boolOp b es => .boolOp b (PE.rewriteL es)
  | .call f args => .call f (PE.rewriteL args)
  | .ifexp t a b => .ifexp t.rewrite a.rewrite b.rewrite
/-- See `PE.rewrite`. -/
def PE.rewriteL : List PE → List PE
  | [] => []
  | e :: es => e.rewrite :: PE.rewriteL es
end

/-! ## Python -/

/-- What Python does with everything but variables and events: calls, the other operators, comparisons of its own objects. -/
structure PyHost where
  call : String → List Obj → Res Obj
  bin : BinOp → Obj → Obj → Res Obj
  un : String → Obj → Res Obj
  cmp : CmpOp → Obj → Obj → Res Obj

/-- A number. -/
def Obj.num? : Obj → Option ℝ
  | .int z => some z
  | .num x => some x
  | _ => none

/-- `bool(o)`: events and transforms have no `__bool__`, so they are true. -/
noncomputable def Obj.truthy : Obj → Bool
  | .bool b => b
  | .int z => decide (z ≠ 0)
  | .num x => decide (x ≠ 0)
  | .str s => decide (s ≠ "")
  | .coll vs => decide (vs ≠ [])
  | _ => true

/-- The values of a Python collection, as `Transform.__lshift__` reads them (transforms.py 324-336): strings and numbers. -/
def Obj.vals : List Obj → Res (List (Val EReal))
  | [] => .ok []
  | .str s :: os => do
    let r ← Obj.vals os
    .ok (.str s :: r)
  | o :: os =>
    match o.num? with
    | some x => do
      let r ← Obj.vals os
      .ok (.num (x : EReal) :: r)
    | none => .error .type

/-- `l << r`: transforms.py 315-340. -/
noncomputable def evalShift (H : PyHost) (c : Ctx) (l r : Obj) : Res Obj :=
  match l, r with
  | .tr t, .coll vs => do
    let l ← Obj.vals vs
    .ok (.ev (t.inList l))
  | .tr t, .set S => do
    let e ← t.inSet c S
    .ok (.ev e)
  | .tr _, _ => .error .type
  | .ev _, _ => .error .type
  | l, r => H.bin .lshift l r

/-- Binary operators: `<<` as above, `&` and `|` of events (transforms.py 864-903, 1113-1128, 1166-1181); the rest is the host's. -/
noncomputable def evalBin (H : PyHost) (c : Ctx) (op : BinOp) (l r : Obj) : Res Obj :=
  match op, l, r with
  | .bitAnd, .ev e, .ev f => do
    let g ← e.land c f
    .ok (.ev g)
  | .bitOr, .ev e, .ev f => do
    let g ← e.lor c f
    .ok (.ev g)
  | .lshift, l, r => evalShift H c l r
  | op, l, r => H.bin op l r

/-- Unary operators: `~` of events (transforms.py 970-981, 1022-1028, 1073-1075, 1131-1133, 1184-1186), `not`; the rest is the host's. -/
noncomputable def evalUn (H : PyHost) (c : Ctx) (op : UnOp) (o : Obj) : Res Obj :=
  match op, o with
  | .invert, .ev e => do
    let g ← e.not c
    .ok (.ev g)
  | .invert, o => H.un "~" o
  | .not, o => .ok (.bool (!o.truthy))
  | .other s, o => H.un s o

/-- An ordering comparison of a transform with a number (transforms.py 281-312). -/
noncomputable def cmpTr (op : CmpOp) (t : Tr) (x : ℝ) : Res Ev :=
  match op with
  | .lt => t.ltNum x
  | .le => t.leNum x
  | .gt => t.gtNum x
  | .ge => t.geNum x
  | _ => .error .type

/-- An ordering comparison of an interval event with a number (transforms.py 930-969). -/
noncomputable def cmpIvl (op : CmpOp) (t : Tr) (i : Ivl EReal) (x : ℝ) : Res Ev :=
  match op with
  | .lt => chainLt t i x true
  | .le => chainLt t i x false
  | .gt => chainGt t i x true
  | .ge => chainGt t i x false
  | _ => .error .type

/-- The reflected comparison, which Python tries when the left operand is a number. -/
def CmpOp.flip : CmpOp → CmpOp
  | .lt => .gt
  | .le => .ge
  | .gt => .lt
  | .ge => .le
  | op => op

/-- `<`, `<=`, `>`, `>=`. -/
def CmpOp.isOrder : CmpOp → Bool
  | .lt | .le | .gt | .ge => true
  | _ => false

/-- An ordering comparison of an object with a number. -/
noncomputable def cmpOrder (H : PyHost) (op : CmpOp) (o : Obj) (x : ℝ) : Res Obj :=
  match o with
  | .tr t => do
    let e ← cmpTr op t x
    .ok (.ev e)
  | .ev (.ivl t i) => do
    let e ← cmpIvl op t i x
    .ok (.ev e)
  | .ev _ => .error .type
  | o => H.cmp op o (.num x)

/-- One comparison. `==`, `!=`, `in` and `not in` of objects are the host's (on transforms and events, `==` compares their structure). -/
noncomputable def evalCmp (H : PyHost) (op : CmpOp) (l r : Obj) : Res Obj :=
  if op.isOrder = true then
    match l.num?, r.num? with
    | some _, some _ => H.cmp op l r
    | none, some x => cmpOrder H op l x
    | some x, none => cmpOrder H op.flip r x
    | none, none => .error .type
  else H.cmp op l r

mutual
/-- How Python evaluates an expression.  (Negative indexes of arrays are left out: `IndexError`.)  Functions are not objects here: a name that is bound hides the
function, and variables, numbers and strings cannot be called. -/
noncomputable def PE.eval (H : PyHost) (c : Ctx) (ρ : NS) : PE → Res Obj
  | .host _ run => run ρ
  | .name x =>
    match ρ x with
    | some o => .ok o
    | none => .error .key
  | .lit o => .ok o
  | .sub x i => do
    let k ← i.eval H c ρ
    match ρ x, k with
    | some (.coll vs), .int z =>
      match vs[z.toNat]? with
      | some o => if 0 ≤ z then .ok o else .error .index
      | none => .error .index
    | some _, _ => .error .type
    | none, _ => .error .key
  | .set es => do
    let vs ← PE.evalL H c ρ es
    .ok (.coll vs)
  | .cmp l ops rs => do
    let v ← l.eval H c ρ
    PE.evalChain H c ρ v ops rs
  | .bin op l r => do
    let v ← l.eval H c ρ
    let w ← r.eval H c ρ
    evalBin H c op v w
  | .un op e => do
    let v ← e.eval H c ρ
    evalUn H c op v
  | .boolOp b es => PE.evalBool H c ρ b es
  | .call f args => do
    let vs ← PE.evalL H c ρ args
    if (ρ f).isSome = true then .error .type else H.call f vs
  | .ifexp t a b => do
    let v ← t.eval H c ρ
    if v.truthy = true then a.eval H c ρ else b.eval H c ρ
/-- See `PE.eval`. -/
noncomputable def PE.evalL (H : PyHost) (c : Ctx) (ρ : NS) : List PE → Res (List Obj)
  | [] => .ok []
  | e :: es => do
    let v ← e.eval H c ρ
    let vs ← PE.evalL H c ρ es
    .ok (v :: vs)
/-- Python: `a < b < c` is `a < b and b < c`, with `b` evaluated once. -/
noncomputable def PE.evalChain (H : PyHost) (c : Ctx) (ρ : NS) (v : Obj) : List CmpOp → List PE → Res Obj
  | [op], [r] => do
    let w ← r.eval H c ρ
    evalCmp H op v w
  | op :: ops, r :: rs => do
    let w ← r.eval H c ρ
    let b ← evalCmp H op v w
    if b.truthy = true then PE.evalChain H c ρ w ops rs else .ok b
  | _, _ => .error .type
/-- Python: `a and b` is `a` if `a` is false, and `b` otherwise; `a or b` is `a` if `a` is true, and `b` otherwise. -/
noncomputable def PE.evalBool (H : PyHost) (c : Ctx) (ρ : NS) (isAnd : Bool) : List PE → Res Obj
  | [] => .error .type
  | [e] => e.eval H c ρ
  | e :: es => do
    let v ← e.eval H c ρ
    if v.truthy = isAnd then PE.evalBool H c ρ isAnd es else .ok v
end

end Sppl
