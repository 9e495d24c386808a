import Verif.Comp.AgainModel
import Verif.Interp.AgainProps

set_option linter.all false

/-!
# Compiled modules that are interpreted more than once: lemmas
-/

namespace Sppl
open Classical

def ArgO.plain : ArgO → Arg
  | .test o => .test o
  | .cmd m => .cmd m.plain

theorem plainL_eq_map : ∀ ms : List CmdO, CmdO.plainL ms = ms.map CmdO.plain
  | [] => rfl
  | m :: ms => by simp [CmdO.plainL, plainL_eq_map ms]

theorem allCmdsO_plain : ∀ as : List ArgO, (allCmdsO as).map CmdO.plainL = allCmds (as.map ArgO.plain)
  | [] => rfl
  | .cmd m :: as => by
    have ih := allCmdsO_plain as
    simp only [List.map_cons, ArgO.plain, allCmds, allCmdsO, ← ih]
    cases allCmdsO as <;> rfl
  | .test o :: as => rfl

theorem oneCmdO_plain (as : List ArgO) : (oneCmdO as).map CmdO.plain = oneCmd (as.map ArgO.plain) := by
  match as with
  | [] => rfl
  | [.cmd m] => rfl
  | [.test m] => rfl
  | .cmd m :: a :: as => rfl
  | .test m :: a :: as => rfl

theorem splitArgsO_plain : ∀ as : List ArgO, (splitArgsO as).map (fun r => (r.1, CmdO.plainL r.2)) = splitArgs (as.map ArgO.plain)
  | [] => rfl
  | [.test o] => rfl
  | .test o :: .test o' :: as => rfl
  | .cmd m :: as => by simp [splitArgsO, splitArgs, ArgO.plain, Except.map]
  | .test o :: .cmd m :: as => by
    have ih := splitArgsO_plain as
    simp only [List.map_cons, ArgO.plain, splitArgs, splitArgsO, ← ih]
    cases splitArgsO as <;> rfl

theorem mkIfElseO_plain (as : List ArgO) : (mkIfElseO as).map CmdO.plain = mkIfElse (as.map ArgO.plain) := by
  simp only [mkIfElseO, mkIfElse, ← splitArgsO_plain]
  cases splitArgsO as with
  | error x => rfl
  | ok r =>
    simp only [bind, Except.bind, Except.map]
    cases splitConds r.1 <;> simp [CmdO.plain]

theorem tabulateO_plain (n0 : ℤ) (ms : List CmdO) (i : ℤ) : (tabulateO n0 ms i).plain = tabulate n0 (ms.map CmdO.plain) i := by
  simp only [tabulateO, tabulate, List.getElem?_map]
  cases ms[(i - n0).toNat]? <;> simp [CmdO.plain]

theorem mapM_plain {α : Type} {f : α → Res CmdO} {g : α → Res Cmd} : ∀ xs : List α, (∀ x ∈ xs, (f x).map CmdO.plain = g x) → (xs.mapM f).map (List.map CmdO.plain) = xs.mapM g
  | [], _ => rfl
  | x :: xs, h => by
    have ih := mapM_plain xs (fun y hy => h y (by simp [hy]))
    rw [List.mapM_cons, List.mapM_cons, ← ih, ← h x (by simp)]
    cases f x <;> cases xs.mapM f <;> rfl

theorem finish_plain {X : Res (List CmdO)} {Y : Res (List Cmd)} (h : X.map (List.map CmdO.plain) = Y) {f : List CmdO → CmdO} {g : List Cmd → Cmd}
    (hf : ∀ ms, (f ms).plain = g (ms.map CmdO.plain)) :
    Except.map ArgO.plain (X.bind fun v => .ok (.cmd (f v))) = Y.bind fun v => .ok (.cmd (g v)) := by
  subst h
  cases X with
  | error e => rfl
  | ok ms => simp only [Except.map, Except.bind, ArgO.plain, hf]

mutual
theorem runO_plain (H : PyHost) (c : Ctx) : ∀ (t : Tgt) (ρ : NS), (Tgt.runO H c ρ t).map ArgO.plain = Tgt.run H c ρ t
  | .seq args, ρ => by
    have ih := runOL_plain H c args ρ
    simp only [Tgt.run, Tgt.runO, ← ih]
    cases Tgt.runOL H c ρ args with
    | error x => rfl
    | ok as =>
      simp only [bind, Except.bind, Except.map, ← allCmdsO_plain]
      cases allCmdsO as <;> simp [ArgO.plain, CmdO.plain]
  | .sample target value, ρ => by
    simp only [Tgt.run, Tgt.runO, bind, Except.bind]
    cases target.eval H c ρ with
    | error x => rfl
    | ok x =>
      dsimp only
      cases x.var with
      | error x => rfl
      | ok X =>
        dsimp only
        cases value.eval H c ρ with
        | error x => rfl
        | ok v => cases v <;> rfl
  | .transform target value, ρ => by
    simp only [Tgt.run, Tgt.runO, bind, Except.bind]
    cases target.eval H c ρ with
    | error x => rfl
    | ok x =>
      dsimp only
      cases x.var with
      | error x => rfl
      | ok X =>
        dsimp only
        cases value.eval H c ρ with
        | error x => rfl
        | ok v => cases v <;> rfl
  | .condition e, ρ => by
    simp only [Tgt.run, Tgt.runO, bind, Except.bind]
    cases e.eval H c ρ with
    | error x => rfl
    | ok v => cases v <;> rfl
  | .constrain items, ρ => by
    simp only [Tgt.run, Tgt.runO, bind, Except.bind]
    cases runItems H c ρ items [] <;> rfl
  | .ifelse args, ρ => by
    have ih := runOL_plain H c args ρ
    simp only [Tgt.run, Tgt.runO, ← ih]
    cases Tgt.runOL H c ρ args with
    | error x => rfl
    | ok as =>
      simp only [bind, Except.bind, Except.map, ← mkIfElseO_plain]
      cases mkIfElseO as <;> simp [ArgO.plain, CmdO.plain]
  | .forr n0 n1 x body, ρ => by
    simp only [Tgt.run, Tgt.runO, bind, Except.bind]
    cases n0.eval H c ρ with
    | error x => rfl
    | ok a =>
      dsimp only
      cases n1.eval H c ρ with
      | error x => rfl
      | ok b =>
        dsimp only
        cases a with
        | int a =>
          cases b with
          | int b =>
            dsimp only
            refine finish_plain (f := fun ms => .forr a b (tabulateO a ms)) (g := fun ms => .forr a b (tabulate a ms)) (mapM_plain (intRange a b) ?_) ?_
            · intro i _
              rw [← runOL_plain H c body]
              cases Tgt.runOL H c (ρ.bind x (.int i)) body with
              | error e => rfl
              | ok as => exact oneCmdO_plain as
            · intro ms
              simp only [CmdO.plain, tabulateO_plain]
          | _ => rfl
        | _ => rfl
  | .switch symbol values i x body, ρ => by
    simp only [Tgt.run, Tgt.runO, bind, Except.bind]
    cases symbol.eval H c ρ with
    | error x => rfl
    | ok t =>
      dsimp only
      cases values.eval H c ρ with
      | error x => rfl
      | ok vs =>
        dsimp only
        cases t with
        | tr t =>
          cases vs with
          | coll vs =>
            dsimp only
            cases vs.mapM Obj.swVal with
            | error x => rfl
            | ok ss =>
              dsimp only
              refine finish_plain (f := fun ms => .switch (givenBy i) t ss ms) (g := fun ms => .switch t ss ms) (mapM_plain vs.zipIdx ?_) ?_
              · intro v _
                rw [← runOL_plain H c body]
                cases Tgt.runOL H c (bindCase ρ i x v.2 v.1) body with
                | error e => rfl
                | ok as => exact oneCmdO_plain as
              · intro ms
                cases i <;> simp [CmdO.plain, plainL_eq_map, givenBy, Given.calls]
          | _ => rfl
        | _ => rfl
  | .test e, ρ => by
    simp only [Tgt.run, Tgt.runO, bind, Except.bind]
    cases e.eval H c ρ <;> rfl
theorem runOL_plain (H : PyHost) (c : Ctx) : ∀ (ts : List Tgt) (ρ : NS), (Tgt.runOL H c ρ ts).map (List.map ArgO.plain) = Tgt.runL H c ρ ts
  | [], ρ => rfl
  | t :: ts, ρ => by
    have h1 := runO_plain H c t ρ
    have h2 := runOL_plain H c ts ρ
    simp only [Tgt.runL, Tgt.runOL, ← h1, ← h2]
    cases Tgt.runO H c ρ t <;> cases Tgt.runOL H c ρ ts <;> rfl
end

theorem Prog.runO_plain (H : PyHost) (c : Ctx) (ρ : NS) (p : Prog) : (p.runO H c ρ).map CmdO.plain = p.run H c ρ := by
  simp only [Prog.run, Prog.runO, bind, Except.bind]
  cases p.names H c ρ with
  | error x => rfl
  | ok ρ' =>
    dsimp only
    rw [← runOL_plain]
    cases Tgt.runOL H c ρ' p.command with
    | error x => rfl
    | ok as => exact oneCmdO_plain as

end Sppl
