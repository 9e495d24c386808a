import Verif.Spe.Mix
import Verif.Spe.Transform
import Verif.Spe.Density

/-!
# Model of `/repo/src/compilers/ast_to_spe.py`: the commands and their interpretation
-/

namespace Sppl
open Classical

/-- What `X >> ...` accepts in `Sample`: a distribution or a mixture of distributions. -/
inductive Source
  | one (d : Distr)
  | mix (m : DMix)

/-- `symbol >> distribution` (transforms.py 395-397): the call of the distribution. -/
noncomputable def Source.call (L : Lib) (X : String) : Source → Res Spe
  | .one d => d.call L X
  | .mix m => m.call L X

/-- The values of a `Switch` (ast_to_spe.py 105-128): a set, a string or a number. -/
inductive SwVal
  | set (S : SSet EReal)
  | str (x : String)
  | num (x : ℝ)

/-- ast_to_spe.py 123-128 `value_to_set`. -/
noncomputable def SwVal.toSet : SwVal → SSet EReal
  | .set S => S
  | .str x => .pc (.nom ⟨{x}, none⟩)
  | .num x => .pc (.fin {(x : EReal)})

/-- The commands of ast_to_spe.py 28-136.  `IfElse(c0, s0, c1, s1, ...)` has the conditions and the subcommands in
two lists, and `els` if the last condition is `True`.  `Switch` has the list of the subcommands that its function returns. -/
inductive Cmd
  | skip
  | sample (X : String) (d : Source)
  | transform (Y : String) (t : Tr)
  | condition (e : Ev)
  | constrain (a : Point)
  | ifelse (conds : List Ev) (els : Bool) (cmds : List Cmd)
  | forr (n0 n1 : ℤ) (f : ℤ → Cmd)
  | switch (t : Tr) (vals : List SwVal) (cmds : List Cmd)
  | seq (cmds : List Cmd)

/-- The parameters of an interpretation: sympy, scipy, `hash`, the depth bound of the model, and what is done with a mixture of branches
(ast_to_spe.py 161-163: `spe_simplify_sum`, or nothing if `SPPL_NO_SIMPLIFY` is set). -/
structure Opts where
  c : Ctx
  L : Lib
  hash : Spe → ℤ
  n : ℕ
  simp : Spe → Res Spe

/-- What a command does with the SPE so far (`None` at the start). -/
abbrev Run := Option Spe → Res (Option Spe)

/-- ast_to_spe.py 76-79, 83-86: `reduce(lambda x, e: x & ~e, conditions[:i], conditions[i])`. -/
noncomputable def branchEvent (c : Ctx) (before : List Ev) (e : Ev) : Res Ev :=
  before.foldlM (fun x f => do
    let g ← f.not c
    x.land c g) e

/-- ast_to_spe.py 75-79, 83-86: the events of the conditions; `before` are the earlier conditions. -/
noncomputable def branchEvents (c : Ctx) (before : List Ev) : List Ev → Res (List Ev)
  | [] => .ok []
  | e :: es => do
    let x ← branchEvent c before e
    let xs ← branchEvents c (before ++ [e]) es
    .ok (x :: xs)

/-- ast_to_spe.py 74-87: the events of all the branches. -/
noncomputable def ifEvents (c : Ctx) (conds : List Ev) (els : Bool) : Res (List Ev) :=
  if els = true then do
    let xs ← branchEvents c [] conds
    match conds with
    | [] => .error .type
    | e :: es => do
      let u ← es.foldlM (fun x f => x.lor c f) e
      let v ← u.not c
      .ok (xs ++ [v])
  else if conds = [] then .error .index
  else branchEvents c [] conds

/-- ast_to_spe.py 142-143: the probability of an event, zero for `None`; `memo` is given. -/
noncomputable def optProb (o : Opts) (s : Spe) : Option Ev → Res ℝ
  | some e => keyed o.c o.n s e (s.prob o.c o.L o.n e)
  | none => .ok 0

/-- ast_to_spe.py 149: `spe.condition(events[i], memo)`. -/
noncomputable def optCond (o : Opts) (s : Spe) : Option Ev → Res Spe
  | some e => keyed o.c o.n s e (s.condition o.c o.L o.hash o.n e)
  | none => .error .attribute

/-- ast_to_spe.py 153-156: a subcommand run on a conditioned SPE (a `None` result has no symbols). -/
def runSome (r : Run) (s : Spe) : Res Spe := do
  let x ← r (some s)
  match x with
  | some t => .ok t
  | none => .error .attribute

/-- ast_to_spe.py 158-163: the mixture of the results. -/
noncomputable def mergeBranches (o : Opts) (ws : List ℝ) : List Spe → Res Spe
  | [s] => .ok s
  | ss => do
    let s ← mkSum ss ws
    o.simp s

/-- ast_to_spe.py 138-165 `interpret_if_block`; the memo table is left out (see C27). -/
noncomputable def ifBlock (o : Opts) (s : Spe) (events : List (Option Ev)) (rs : List Run) : Res Spe :=
  if events.length ≠ rs.length then .error .assertion
  else do
    let ps ← events.mapM (optProb o s)
    let good := ((events.zip rs).zip ps).filter (fun q => q.2 ≠ 0)
    if good = [] then .error .assertion
    else do
      let ss ← good.mapM (fun q => optCond o s q.1.1)
      if (good.map Prod.snd).sum ≠ 1 then .error .assertion
      else do
        let ts ← (good.zip ss).mapM (fun q => runSome q.1.1.2 q.2)
        mergeBranches o (good.map Prod.snd) ts

/-- ast_to_spe.py 116-118: `reduce(lambda x, s: x & ~s, sets[:i], sets[i])`. -/
noncomputable def caseSet (c : Ctx) (before : List (SSet EReal)) (S : SSet EReal) : Res (SSet EReal) :=
  before.foldlM (fun x T => do
    let n ← SSet.invert c.σ T
    SSet.and c.σ x n) S

/-- ast_to_spe.py 116-119: the events of the cases; `before` are the earlier sets. -/
noncomputable def caseEvents (c : Ctx) (t : Tr) (before : List (SSet EReal)) : List (SSet EReal) → Res (List Ev)
  | [] => .ok []
  | S :: Ss => do
    let x ← caseSet c before S
    let e ← t.inSet c x
    let es ← caseEvents c t (before ++ [S]) Ss
    .ok (e :: es)

/-- `assert spe is not None`. -/
def needSpe {β : Type} (s : Option Spe) (f : Spe → Res β) : Res β :=
  match s with
  | some s => f s
  | none => .error .assertion

/-- `range(n0, n1)`. -/
def intRange (n0 n1 : ℤ) : List ℤ := (List.range (n1 - n0).toNat).map (fun k : ℕ => n0 + (k : ℤ))

mutual
/-- `interpret`: ast_to_spe.py 33-37 (`Skip`), 39-45 (`Sample`), 47-53 (`Transform`), 55-60 (`Condition`), 62-67 (`Constrain`), 69-93 (`IfElse`), 95-103 (`For`),
105-122 (`Switch`; a `None` state gives `AttributeError` there, or, without cases, the `AssertionError` of lines 139 and 147), 130-134 (`Sequence`). -/
noncomputable def Cmd.interp (o : Opts) : Cmd → Option Spe → Res (Option Spe)
  | .skip, s => .ok s
  | .sample X d, s => do
    let leaf ← d.call o.L X
    match s with
    | none => .ok (some leaf)
    | some s => do
      let r ← mkProd [s, leaf]
      .ok (some r)
  | .transform Y t, s => needSpe s (fun s => do
    let r ← s.transform o.L Y t
    .ok (some r))
  | .condition e, s => needSpe s (fun s => do
    let r ← s.condition o.c o.L o.hash o.n e
    .ok (some r))
  | .constrain a, s => needSpe s (fun s => do
    let r ← s.constrain o.L a
    .ok (some r))
  | .ifelse conds els cmds, s => needSpe s (fun s => do
    let es ← ifEvents o.c conds els
    let ds ← es.mapM (dnfNormalize o.c o.n)
    let r ← ifBlock o s ds (Cmd.interpL o cmds)
    .ok (some r))
  | .forr n0 n1 f, s => (intRange n0 n1).foldlM (fun s i => Cmd.interp o (f i) s) s
  | .switch t vals cmds, s => do
    let es ← caseEvents o.c t [] (vals.map SwVal.toSet)
    match s with
    | none => .error (if es.length ≠ cmds.length ∨ es = [] then .assertion else .attribute)
    | some s => do
      let r ← ifBlock o s (es.map some) (Cmd.interpL o cmds)
      .ok (some r)
  | .seq cmds, s => (Cmd.interpL o cmds).foldlM (fun s r => r s) s
/-- The interpretations of the commands. -/
noncomputable def Cmd.interpL (o : Opts) : List Cmd → List Run
  | [] => []
  | m :: ms => Cmd.interp o m :: Cmd.interpL o ms
end

end Sppl
