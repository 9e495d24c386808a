import Verif.Comp.Model

/-!
# Sources whose modules can be interpreted more than once
-/

namespace Sppl

mutual
/-- No `switch` over `enumerate(...)`, except in the bodies of loops and of other `switch`es. -/
def Stmt.Again : Stmt → Prop
  | .ifs _ body orelse => Stmt.AgainL body ∧ Stmt.AgainL orelse
  | .switch i _ _ _ _ => i = none
  | .other body => Stmt.AgainL body
  | _ => True
/-- See `Stmt.Again`. -/
def Stmt.AgainL : List Stmt → Prop
  | [] => True
  | s :: ss => s.Again ∧ Stmt.AgainL ss
end

end Sppl
