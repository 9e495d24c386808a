import Verif.Interp.Model

/-!
# Model of `/repo/src/compilers/ast_to_spe.py`: commands as objects that are interpreted more than once

The only thing that a command changes when it is interpreted is an iterator that was given to `Switch` as its values.
-/

namespace Sppl
open Classical

/-- What the values of a `Switch` are (ast_to_spe.py 106-117): a list, an `enumerate` object, or another iterator (such as `map(...)` or a generator). -/
inductive Given
  | list | enum | iter
deriving DecidableEq

/-- The commands of ast_to_spe.py 28-136 as objects.  `base` is any of `Skip`, `Sample`, `Transform`, `Condition` and `Constrain` (or another command without iterators).  The function of a `For`
and that of a `Switch` make new objects whenever they are called (as the functions of compiled programs do, sppl_to_python.py 205-219, 225-250); `Switch` has the list of what its function returns for
the values that are left.  No object is part of two others. -/
inductive CmdO
  | base (m : Cmd)
  | ifelse (conds : List Ev) (els : Bool) (cmds : List CmdO)
  | forr (n0 n1 : ℤ) (f : ℤ → CmdO)
  | switch (k : Given) (t : Tr) (vals : List SwVal) (cmds : List CmdO)
  | seq (cmds : List CmdO)

/-- ast_to_spe.py 142-150: the SPEs on which the subcommands are interpreted; none for the events of probability zero. -/
noncomputable def branchSlot (o : Opts) (s : Spe) (q : Option Ev × ℝ) : Res (Option Spe) :=
  if q.2 = 0 then .ok none
  else do
    let t ← optCond o s q.1
    .ok (some t)

/-- ast_to_spe.py 138-152: the weights, and the SPEs on which the subcommands are interpreted; `len` is the number of subcommands. -/
noncomputable def branchSlots (o : Opts) (s : Spe) (events : List (Option Ev)) (len : ℕ) : Res (List ℝ × List (Option Spe)) :=
  if events.length ≠ len then .error .assertion
  else do
    let ps ← events.mapM (optProb o s)
    if ps.filter (fun p => p ≠ 0) = [] then .error .assertion
    else do
      let ss ← (events.zip ps).mapM (branchSlot o s)
      if (ps.filter (fun p => p ≠ 0)).sum ≠ 1 then .error .assertion
      else .ok (ps.filter (fun p => p ≠ 0), ss)

/-- ast_to_spe.py 74-91: the events of `IfElse`. -/
noncomputable def ifPlan (o : Opts) (s : Spe) (conds : List Ev) (els : Bool) (len : ℕ) : Res (List ℝ × List (Option Spe)) := do
  let es ← ifEvents o.c conds els
  let ds ← es.mapM (dnfNormalize o.c o.n)
  branchSlots o s ds len

/-- ast_to_spe.py 118-121: the events of `Switch`. -/
noncomputable def switchPlan (o : Opts) (s : Option Spe) (t : Tr) (vals : List SwVal) (len : ℕ) : Res (List ℝ × List (Option Spe)) := do
  let es ← caseEvents o.c t [] (vals.map SwVal.toSet)
  match s with
  | none => .error (if es.length ≠ len ∨ es = [] then .assertion else .attribute)
  | some s => branchSlots o s (es.map some) len

/-- ast_to_spe.py 157-165: the mixture. -/
noncomputable def mergeSome (o : Opts) (ws : List ℝ) (ts : Res (List Spe)) : Res (Option Spe) := do
  let ts ← ts
  let r ← mergeBranches o ws ts
  .ok (some r)

/-- ast_to_spe.py 111-117: the subcommands that a `Switch` has for its values: an iterator other than `enumerate` has been read to its end when the function is called. -/
def Given.calls {β : Type} (k : Given) (cmds : List β) : List β :=
  match k with
  | .iter => []
  | _ => cmds

/-- ast_to_spe.py 111-117: the object after that. -/
def CmdO.afterwards (k : Given) (t : Tr) (vals : List SwVal) (cmds : List CmdO) : CmdO :=
  match k with
  | .list => .switch .list t vals cmds
  | k => .switch k t [] []

mutual
/-- `interpret`, with the object as it is afterwards: see `Cmd.interp`. -/
noncomputable def CmdO.run (o : Opts) : CmdO → Option Spe → Res (Option Spe) × CmdO
  | .base m, s => (m.interp o s, .base m)
  | .ifelse conds els cmds, s =>
    match s with
    | none => (.error .assertion, .ifelse conds els cmds)
    | some s =>
      match ifPlan o s conds els cmds.length with
      | .error x => (.error x, .ifelse conds els cmds)
      | .ok q => (mergeSome o q.1 (CmdO.runBranches o cmds q.2).1, .ifelse conds els (CmdO.runBranches o cmds q.2).2)
  | .forr n0 n1 f, s => ((intRange n0 n1).foldlM (fun s i => (CmdO.run o (f i) s).1) s, .forr n0 n1 f)
  | .switch k t vals cmds, s =>
    match switchPlan o s t vals (k.calls cmds).length with
    | .error x => (.error x, CmdO.afterwards k t vals cmds)
    | .ok q => (mergeSome o q.1 (match k with
        | .iter => .ok []
        | _ => (CmdO.runBranches o cmds q.2).1), CmdO.afterwards k t vals cmds)
  | .seq cmds, s => ((CmdO.runSeq o cmds s).1, .seq (CmdO.runSeq o cmds s).2)
/-- ast_to_spe.py 154-157: the subcommands, one after the other. -/
noncomputable def CmdO.runBranches (o : Opts) : List CmdO → List (Option Spe) → Res (List Spe) × List CmdO
  | [], _ => (.ok [], [])
  | m :: ms, [] => (.ok [], m :: ms)
  | m :: ms, none :: ss => ((CmdO.runBranches o ms ss).1, m :: (CmdO.runBranches o ms ss).2)
  | m :: ms, some s :: ss =>
    match (CmdO.run o m (some s)).1 with
    | .error x => (.error x, (CmdO.run o m (some s)).2 :: ms)
    | .ok none => (.error .attribute, (CmdO.run o m (some s)).2 :: ms)
    | .ok (some t) => ((CmdO.runBranches o ms ss).1.map (t :: ·), (CmdO.run o m (some s)).2 :: (CmdO.runBranches o ms ss).2)
/-- ast_to_spe.py 133-134: one after the other. -/
noncomputable def CmdO.runSeq (o : Opts) : List CmdO → Option Spe → Res (Option Spe) × List CmdO
  | [], s => (.ok s, [])
  | m :: ms, s =>
    match (CmdO.run o m s).1 with
    | .error x => (.error x, (CmdO.run o m s).2 :: ms)
    | .ok s' => ((CmdO.runSeq o ms s').1, (CmdO.run o m s).2 :: (CmdO.runSeq o ms s').2)
end

/-- The same object is interpreted with one state after the other. -/
noncomputable def CmdO.runs (o : Opts) : CmdO → List (Option Spe) → List (Res (Option Spe))
  | _, [] => []
  | m, s :: ss => (m.run o s).1 :: CmdO.runs o (m.run o s).2 ss

mutual
/-- The command, without what it has in memory: what `Cmd.interp` gives is what a new object gives. -/
def CmdO.plain : CmdO → Cmd
  | .base m => m
  | .ifelse conds els cmds => .ifelse conds els (CmdO.plainL cmds)
  | .forr n0 n1 f => .forr n0 n1 (fun i => (f i).plain)
  | .switch k t vals cmds => .switch t vals (k.calls (CmdO.plainL cmds))
  | .seq cmds => .seq (CmdO.plainL cmds)
/-- See `CmdO.plain`. -/
def CmdO.plainL : List CmdO → List Cmd
  | [] => []
  | m :: ms => m.plain :: CmdO.plainL ms
end

end Sppl
