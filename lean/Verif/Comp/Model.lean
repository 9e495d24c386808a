import Verif.Comp.Expr

/-!
# Model of `/repo/src/compilers/sppl_to_python.py`: statements

The visitor writes text.  Here it writes syntax trees: `Tgt` for what one entry `...,` of the text is when Python parses it.
-/

namespace Sppl
open Classical

/-- The targets of assignments. -/
inductive Target
  | name (x : String)
  | sub (x : String) (i : PE)

/-- The target as an expression. -/
def Target.expr : Target → PE
  | .name x => .name x
  | .sub x i => .sub x i

/-- Statements (`ast.stmt`) after the preprocessing of sppl_to_python.py 348-356 (`~=` is `=`; `switch` is a `for`).  `switch (some i) x sym vals body` is
`for i, x in switch(sym, enumerate(vals))`, and with `none` it is `for x in switch(sym, vals)`.  `constrain` has the items of a dictionary display, and `call` stands for the
calls of other functions.  `other body` stands for the statements without a visitor method that have one block: `while` (whose test calls no function and has no chain of comparisons), and, with an empty
block, `assert`, `X += 1` and `X: float = norm()` (which have none).  Imports and the other statements are left out. -/
inductive Stmt
  | assign (target : Target) (value : PE)
  | ifs (test : PE) (body orelse : List Stmt)
  | forr (x : String) (n0 n1 : PE) (body : List Stmt)
  | switch (i : Option String) (x : String) (symbol values : PE) (body : List Stmt)
  | condition (e : PE)
  | constrain (items : List (PE × PE))
  | call (f : String) (args : List PE)
  | other (body : List Stmt)
  | pass

/-- What is written: commands and tests. `For(n0, n1, lambda x: ...)` and `Switch(symbol, values, lambda x: ...)` have what is written
for their bodies; `Switch(symbol, enumerate(values), lambda i, x: ...)` has `some i`. -/
inductive Tgt
  | seq (args : List Tgt)
  | sample (target value : PE)
  | transform (target value : PE)
  | condition (e : PE)
  | constrain (items : List (PE × PE))
  | ifelse (args : List Tgt)
  | forr (n0 n1 : PE) (x : String) (body : List Tgt)
  | switch (symbol values : PE) (i : Option String) (x : String) (body : List Tgt)
  | test (e : PE)

/-- What is known of a variable (`self.variables`): `('variable', None)` or `('array', n)`. -/
inductive VarKind
  | scalar
  | array (n : PE)

/-- The state of the visitor (sppl_to_python.py 49-57), without what is written. -/
structure VS where
  first : Bool
  constants : List (Target × PE)
  vars : List (String × VarKind)
  distributions : List String

/-- sppl_to_python.py 272-284 `unroll_if`. -/
def unrollIf (test : PE) (body : List Stmt) : List Stmt → List (PE × List Stmt)
  | [] => [(test, body)]
  | [.ifs t b o] => (test, body) :: unrollIf t b o
  | orelse => [(test, body), (PE.yes, orelse)]

/-- sppl_to_python.py 286-293 `unroll_ifexp`.  (There the body of the `If` is one statement in place of a list of one, which `generic_visit` treats
alike.) -/
def unrollIfExp (target : Target) (test body : PE) : PE → Stmt
  | .ifexp t a b => .ifs test [.assign target body] [unrollIfExp target t a b]
  | orelse => .ifs test [.assign target body] [.assign target orelse]

/-- sppl_to_python.py 28-46, 59-69: the items of a list, wrapped in a `Sequence` if there are several statements or if it is the first list. -/
def sequenceBlock (active : Bool) (items : List Tgt) : List Tgt := if active = true then [.seq items] else items

/-- Visit the elements of a list in turn. -/
def visitItems {α : Type} (f : α → VS → Res (List Tgt × VS)) : List α → VS → Res (List Tgt × VS)
  | [], st => .ok ([], st)
  | x :: xs, st => do
    let a ← f x st
    let b ← visitItems f xs a.2
    .ok (a.1 ++ b.1, b.2)

/-- sppl_to_python.py 59-69 `generic_visit`, on a module. -/
def visitModule (visit : Stmt → VS → Res (List Tgt × VS)) (body : List Stmt) (st : VS) : Res (List Tgt × VS) := do
  let r ← visitItems visit body { st with first := false }
  .ok (sequenceBlock (decide (1 < body.length) || st.first) r.1, r.2)

/-- sppl_to_python.py 116-127 `visit_Assign_array`. -/
def visitArray (ctx : List String) (target : Target) (args : List PE) (st : VS) : Res (List Tgt × VS) :=
  if ctx ≠ ["global"] then .error .assertion
  else match target with
    | .sub _ _ => .error .assertion
    | .name x =>
      if (st.vars.lookup x).isSome then .error .assertion
      else match args with
        | [n] => .ok ([], { st with vars := st.vars ++ [(x, .array n)] })
        | _ => .error .assertion

/-- sppl_to_python.py 135-144: the checks of the target of a random variable. -/
def declare (ctx : List String) (target : Target) (st : VS) : Res VS :=
  match target with
  | .name x =>
    if "for" ∈ ctx then .error .assertion
    else if "elif" ∉ ctx then
      if (st.vars.lookup x).isSome then .error .assertion
      else .ok { st with vars := st.vars ++ [(x, .scalar)] }
    else if (st.vars.lookup x).isSome then .ok st
    else .error .assertion
  | .sub x _ =>
    match st.vars.lookup x with
    | some (.array _) => .ok st
    | _ => .error .assertion

/-- sppl_to_python.py 129-150 `visit_Assign_sample_or_transform`. -/
def visitRandom (ctx : List String) (sample : Bool) (target : Target) (value : PE) (st : VS) : Res (List Tgt × VS) := do
  let st ← declare ctx target st
  .ok ([if sample = true then .sample target.expr value.rewrite else .transform target.expr value.rewrite], st)

/-- sppl_to_python.py 152-158 `visit_Assign_py`.  The constants are the keys of an `OrderedDict`: one that is already there is not added again. -/
noncomputable def visitPy (ctx : List String) (target : Target) (value : PE) (st : VS) : Res (List Tgt × VS) :=
  if ctx ≠ ["global"] then .error .assertion
  else if st.distributions ≠ [] then .error .assertion
  else if (target, value) ∈ st.constants then .ok ([], st)
  else .ok ([], { st with constants := st.constants ++ [(target, value)] })

/-- sppl_to_python.py 86-114: `visit_Assign`, of a value that is not a conditional expression; `D` are the names of the distributions. -/
noncomputable def visitAssign (D : List String) (ctx : List String) (target : Target) (value : PE) (st : VS) : Res (List Tgt × VS) :=
  let ds := value.names.filter (· ∈ D)
  let vs := value.names.filter (fun x => (st.vars.lookup x).isSome)
  let st := { st with distributions := st.distributions ++ ds }
  match value with
  | .call "array" args => visitArray ctx target args st
  | value =>
    if ds ≠ [] then
      match value with
      | .call f args => if f ∈ D then visitRandom ctx true target (.call f args) st else .error .assertion
      | .bin .bitOr l r => visitRandom ctx true target (.bin .bitOr l r) st
      | _ => .error .assertion
    else if vs ≠ [] then visitRandom ctx false target value st
    else visitPy ctx target value st

/-- sppl_to_python.py 231-247: the branches of an `IfElse`; `first` is `i == 0`. -/
def visitBranches (block : List String → List Stmt → VS → Res (List Tgt × VS)) (ctx : List String) (first : Bool) :
    List (PE × List Stmt) → VS → Res (List Tgt × VS)
  | [], st => .ok ([], st)
  | (test, body) :: bs, st => do
    let a ← block (if first = true then ctx else ctx ++ ["elif"]) body st
    let b ← visitBranches block ctx false bs a.2
    .ok (.test test.rewrite :: a.1 ++ b.1, b.2)

/-- `SPPL_Visitor.visit`: sppl_to_python.py 78-84 (`IfExp`), 86-158 (`Assign`), 160-219 (`For`), 221-252 (`If`), 254-270 (`Call`: `condition` and `constrain` take one
argument, and the calls of other functions are ignored), 59-69 (`generic_visit`, for statements without a method).  The number bounds the depth of the recursion. -/
noncomputable def visit (D : List String) : ℕ → List String → Stmt → VS → Res (List Tgt × VS)
  | 0, _, _, _ => .error .recursion
  | n + 1, ctx, s, st =>
    match s with
    | .assign target (.ifexp t a b) => visit D n ctx (unrollIfExp target t a b) st
    | .assign target value => visitAssign D ctx target value st
    | .ifs t b o =>
      let unrolled := unrollIf t b o
      if unrolled.length < 2 then .error .assertion
      else do
        let r ← visitBranches (fun ctx => visitModule (visit D n ctx)) (ctx ++ ["if"]) true unrolled st
        .ok ([.ifelse r.1], r.2)
    | .forr x n0 n1 body => do
      let r ← visitModule (visit D n (ctx ++ ["for"])) body st
      .ok ([.forr n0 n1 x r.1], r.2)
    | .switch i x symbol values body => do
      let r ← visitModule (visit D n (ctx ++ ["switch"])) body st
      .ok ([.switch symbol values i x r.1], r.2)
    | .condition e => .ok ([.condition e.rewrite], st)
    | .constrain items => .ok ([.constrain items], st)
    | .call f _ => if f = "condition" ∨ f = "constrain" then .error .assertion else .ok ([], st)
    | .other body => visitModule (visit D n ctx) body st
    | .pass => .ok ([], st)

/-- The compiled module: sppl_to_python.py 336-405. -/
structure Prog where
  constants : List (Target × PE)
  vars : List String
  arrays : List (String × PE)
  command : List Tgt

/-- The names of the variables (sppl_to_python.py 384). -/
def VS.varNames (st : VS) : List String :=
  st.vars.filterMap (fun p => match p.2 with | .scalar => some p.1 | .array _ => none)

/-- The names and the lengths of the arrays (sppl_to_python.py 385). -/
def VS.arrays (st : VS) : List (String × PE) :=
  st.vars.filterMap (fun p => match p.2 with | .scalar => none | .array n => some (p.1, n))

/-- sppl_to_python.py 359-405 `compile`. -/
noncomputable def compile (D : List String) (n : ℕ) (source : List Stmt) : Res Prog := do
  let r ← visitModule (visit D n ["global"]) source ⟨true, [], [], []⟩
  .ok ⟨r.2.constants, r.2.varNames, r.2.arrays, r.1⟩

/-! ## Running the compiled module -/

/-- The constants, in order.  (Only names can be assigned to.) -/
noncomputable def runConstants (H : PyHost) (c : Ctx) : List (Target × PE) → NS → Res NS
  | [], ρ => .ok ρ
  | (.name x, e) :: cs, ρ => do
    let v ← e.eval H c ρ
    runConstants H c cs (ρ.bind x v)
  | (.sub _ _, _) :: _, _ => .error .type

/-- ast_to_spe.py 26-27 `IdArray`. -/
def idArray (x : String) (n : ℕ) : Obj := .coll ((List.range n).map (fun i => .tr (.id s!"{x}[{i}]")))

/-- `X = Id('X')`. -/
def runVariables : List String → NS → NS
  | [], ρ => ρ
  | x :: xs, ρ => runVariables xs (ρ.bind x (.tr (.id x)))

/-- `X = IdArray('X', n)`. -/
noncomputable def runArrays (H : PyHost) (c : Ctx) : List (String × PE) → NS → Res NS
  | [], ρ => .ok ρ
  | (x, n) :: xs, ρ => do
    let v ← n.eval H c ρ
    match v with
    | .int z => runArrays H c xs (ρ.bind x (idArray x z.toNat))
    | _ => .error .type

/-- The namespace in which the commands are evaluated. -/
noncomputable def Prog.names (H : PyHost) (c : Ctx) (p : Prog) (ρ : NS) : Res NS := do
  let ρ ← runConstants H c p.constants ρ
  runArrays H c p.arrays (runVariables p.vars ρ)

/-- A value in a `Switch`. -/
def Obj.swVal : Obj → Res SwVal
  | .set S => .ok (.set S)
  | .str x => .ok (.str x)
  | o =>
    match o.num? with
    | some x => .ok (.num x)
    | none => .error .type

/-- A value in the dictionary given to `constrain`: a string or a number. -/
def Obj.pointVal : Obj → Res (Val ℝ)
  | .str x => .ok (.str x)
  | o =>
    match o.num? with
    | some x => .ok (.num x)
    | none => .error .type

/-- `d[X] = v` for a Python dictionary. -/
def dictPut (a : Point) (X : String) (v : Val ℝ) : Point :=
  if X ∈ a.map Prod.fst then a.map (fun p => if p.1 = X then (X, v) else p) else a ++ [(X, v)]

/-- The names of the body of a `Switch` for the `k`-th value: ast_to_spe.py 111-118, `self.f(v)`, or `self.f(*v)` for `enumerate`.  (An `enumerate` object can be read once.
A `Switch` is interpreted once when the module is run; a second `command.interpret()` finds no values, see Comp/AgainModel.lean.) -/
def bindCase (ρ : NS) (i : Option String) (x : String) (k : ℕ) (v : Obj) : NS :=
  match i with
  | some i => (ρ.bind i (.int k)).bind x v
  | none => ρ.bind x v

/-- What an argument of `IfElse` evaluates to. -/
inductive Arg
  | test (o : Obj)
  | cmd (m : Cmd)

/-- `branches[::2]` and `branches[1::2]` (ast_to_spe.py 69-75), with commands in the second. -/
def splitArgs : List Arg → Res (List Obj × List Cmd)
  | [] => .ok ([], [])
  | .test o :: .cmd m :: as => do
    let r ← splitArgs as
    .ok (o :: r.1, m :: r.2)
  | _ => .error .type

/-- The conditions: events, of which the last may be `True`.  (In Python, other conditions raise when the command is interpreted.) -/
def splitConds : List Obj → Res (List Ev × Bool)
  | [] => .ok ([], false)
  | [.bool true] => .ok ([], true)
  | .ev e :: os => do
    let r ← splitConds os
    .ok (e :: r.1, r.2)
  | _ => .error .type

/-- `IfElse(...)`. -/
def mkIfElse (as : List Arg) : Res Cmd := do
  let r ← splitArgs as
  let q ← splitConds r.1
  .ok (.ifelse q.1 q.2 r.2)

/-- The variable in `Sample` and `Transform`. -/
def Obj.var : Obj → Res String
  | .tr (.id X) => .ok X
  | _ => .error .type

/-- Exactly one command: the body of a `lambda`. -/
def oneCmd : List Arg → Res Cmd
  | [.cmd m] => .ok m
  | _ => .error .type

/-- Only commands: the arguments of `Sequence`. -/
def allCmds : List Arg → Res (List Cmd)
  | [] => .ok []
  | .cmd m :: as => do
    let ms ← allCmds as
    .ok (m :: ms)
  | .test _ :: _ => .error .type

/-- A function on the integers of a list, from its values there. -/
def tabulate (n0 : ℤ) (ms : List Cmd) (i : ℤ) : Cmd := (ms[(i - n0).toNat]?).getD .skip

/-- The dictionary `{k: v, ...}`, whose keys are variables. -/
noncomputable def runItems (H : PyHost) (c : Ctx) (ρ : NS) : List (PE × PE) → Point → Res Point
  | [], a => .ok a
  | (k, v) :: items, a => do
    let x ← k.eval H c ρ
    let X ← x.var
    let o ← v.eval H c ρ
    let w ← o.pointVal
    runItems H c ρ items (dictPut a X w)

mutual
/-- The value of what is written: the commands of ast_to_spe.py.  (Errors in the arguments and in the bodies of `For` and `Switch`, which Python evaluates when
it interprets the command, are raised at once.) -/
noncomputable def Tgt.run (H : PyHost) (c : Ctx) (ρ : NS) : Tgt → Res Arg
  | .seq args => do
    let as ← Tgt.runL H c ρ args
    let ms ← allCmds as
    .ok (.cmd (.seq ms))
  | .sample target value => do
    let x ← target.eval H c ρ
    let X ← x.var
    let v ← value.eval H c ρ
    match v with
    | .dist d => .ok (.cmd (.sample X d))
    | _ => .error .type
  | .transform target value => do
    let x ← target.eval H c ρ
    let X ← x.var
    let v ← value.eval H c ρ
    match v with
    | .tr t => .ok (.cmd (.transform X t))
    | _ => .error .type
  | .condition e => do
    let v ← e.eval H c ρ
    match v with
    | .ev e => .ok (.cmd (.condition e))
    | _ => .error .type
  | .constrain items => do
    let a ← runItems H c ρ items []
    .ok (.cmd (.constrain a))
  | .ifelse args => do
    let as ← Tgt.runL H c ρ args
    let m ← mkIfElse as
    .ok (.cmd m)
  | .forr n0 n1 x body => do
    let a ← n0.eval H c ρ
    let b ← n1.eval H c ρ
    match a, b with
    | .int a, .int b => do
      let ms ← (intRange a b).mapM (fun i => do
        let as ← Tgt.runL H c (ρ.bind x (.int i)) body
        oneCmd as)
      .ok (.cmd (.forr a b (tabulate a ms)))
    | _, _ => .error .type
  | .switch symbol values i x body => do
    let t ← symbol.eval H c ρ
    let vs ← values.eval H c ρ
    match t, vs with
    | .tr t, .coll vs => do
      let ss ← vs.mapM Obj.swVal
      let ms ← vs.zipIdx.mapM (fun v => do
        let as ← Tgt.runL H c (bindCase ρ i x v.2 v.1) body
        oneCmd as)
      .ok (.cmd (.switch t ss ms))
    | _, _ => .error .type
  | .test e => do
    let v ← e.eval H c ρ
    .ok (.test v)
/-- See `Tgt.run`. -/
noncomputable def Tgt.runL (H : PyHost) (c : Ctx) (ρ : NS) : List Tgt → Res (List Arg)
  | [] => .ok []
  | t :: ts => do
    let a ← Tgt.run H c ρ t
    let as ← Tgt.runL H c ρ ts
    .ok (a :: as)
end

/-- The command of the compiled module, from what Python and the imports define. -/
noncomputable def Prog.run (H : PyHost) (c : Ctx) (ρ : NS) (p : Prog) : Res Cmd := do
  let ρ ← p.names H c ρ
  let as ← Tgt.runL H c ρ p.command
  oneCmd as

end Sppl
