import Verif.Comp.Model
import Verif.Interp.AgainModel

/-!
# Model of the compiled module: the command as an object that can be interpreted more than once

As the last part of `Verif.Comp.Model`, with the objects of `Verif.Interp.AgainModel` in place of `Cmd`.
-/

namespace Sppl
open Classical

/-- What an argument of `IfElse` evaluates to (ast_to_spe.py 69-76). -/
inductive ArgO
  | test (o : Obj)
  | cmd (m : CmdO)

/-- `branches[::2]` and `branches[1::2]` (ast_to_spe.py 75-76). -/
def splitArgsO : List ArgO → Res (List Obj × List CmdO)
  | [] => .ok ([], [])
  | .test o :: .cmd m :: as => do
    let r ← splitArgsO as
    .ok (o :: r.1, m :: r.2)
  | _ => .error .type

/-- `IfElse(...)` (ast_to_spe.py 69-76). -/
def mkIfElseO (as : List ArgO) : Res CmdO := do
  let r ← splitArgsO as
  let q ← splitConds r.1
  .ok (.ifelse q.1 q.2 r.2)

/-- The body of a `lambda` (sppl_to_python.py 205-219). -/
def oneCmdO : List ArgO → Res CmdO
  | [.cmd m] => .ok m
  | _ => .error .type

/-- The arguments of `Sequence` (ast_to_spe.py 130-132). -/
def allCmdsO : List ArgO → Res (List CmdO)
  | [] => .ok []
  | .cmd m :: as => do
    let ms ← allCmdsO as
    .ok (m :: ms)
  | .test _ :: _ => .error .type

/-- A function on the integers of a list, from its values there. -/
def tabulateO (n0 : ℤ) (ms : List CmdO) (i : ℤ) : CmdO := (ms[(i - n0).toNat]?).getD (.base .skip)

/-- The values of `for x in switch(symbol, values)` are a list (or a tuple), and those of `for i, x in switch(symbol, enumerate(values))` an `enumerate` object (sppl_to_python.py 168-192). -/
def givenBy : Option String → Given
  | none => .list
  | some _ => .enum

mutual
/-- The object that is written (sppl_to_python.py 86-270): see `Tgt.run`. -/
noncomputable def Tgt.runO (H : PyHost) (c : Ctx) (ρ : NS) : Tgt → Res ArgO
  | .seq args => do
    let as ← Tgt.runOL H c ρ args
    let ms ← allCmdsO as
    .ok (.cmd (.seq ms))
  | .sample target value => do
    let x ← target.eval H c ρ
    let X ← x.var
    let v ← value.eval H c ρ
    match v with
    | .dist d => .ok (.cmd (.base (.sample X d)))
    | _ => .error .type
  | .transform target value => do
    let x ← target.eval H c ρ
    let X ← x.var
    let v ← value.eval H c ρ
    match v with
    | .tr t => .ok (.cmd (.base (.transform X t)))
    | _ => .error .type
  | .condition e => do
    let v ← e.eval H c ρ
    match v with
    | .ev e => .ok (.cmd (.base (.condition e)))
    | _ => .error .type
  | .constrain items => do
    let a ← runItems H c ρ items []
    .ok (.cmd (.base (.constrain a)))
  | .ifelse args => do
    let as ← Tgt.runOL H c ρ args
    let m ← mkIfElseO as
    .ok (.cmd m)
  | .forr n0 n1 x body => do
    let a ← n0.eval H c ρ
    let b ← n1.eval H c ρ
    match a, b with
    | .int a, .int b => do
      let ms ← (intRange a b).mapM (fun i => do
        let as ← Tgt.runOL H c (ρ.bind x (.int i)) body
        oneCmdO as)
      .ok (.cmd (.forr a b (tabulateO a ms)))
    | _, _ => .error .type
  | .switch symbol values i x body => do
    let t ← symbol.eval H c ρ
    let vs ← values.eval H c ρ
    match t, vs with
    | .tr t, .coll vs => do
      let ss ← vs.mapM Obj.swVal
      let ms ← vs.zipIdx.mapM (fun v => do
        let as ← Tgt.runOL H c (bindCase ρ i x v.2 v.1) body
        oneCmdO as)
      .ok (.cmd (.switch (givenBy i) t ss ms))
    | _, _ => .error .type
  | .test e => do
    let v ← e.eval H c ρ
    .ok (.test v)
/-- See `Tgt.runO`. -/
noncomputable def Tgt.runOL (H : PyHost) (c : Ctx) (ρ : NS) : List Tgt → Res (List ArgO)
  | [] => .ok []
  | t :: ts => do
    let a ← Tgt.runO H c ρ t
    let as ← Tgt.runOL H c ρ ts
    .ok (a :: as)
end

/-- The object `command` of the compiled module (sppl_to_python.py 393-405). -/
noncomputable def Prog.runO (H : PyHost) (c : Ctx) (ρ : NS) (p : Prog) : Res CmdO := do
  let ρ ← p.names H c ρ
  let as ← Tgt.runOL H c ρ p.command
  oneCmdO as

end Sppl
