import Verif.Spe.Model

/-!
# Model of `transform` in `/repo/src/spe.py`
-/

namespace Sppl
open Classical

/-- spe.py 718-722 (real), 940-944 (atomic): the environment with the derived variable `Y`. -/
def envTransform (env : Env) (Y : String) (t : Tr) : Res Env :=
  if Y ∈ env.map Prod.fst then .error .assertion
  else if ∀ s ∈ t.symbols, s ∈ env.map Prod.fst then .ok (env ++ [(Y, t)])
  else .error .assertion

/-- spe.py 471-474: the indexes of the children that have all the variables. -/
def holders (cs : List Spe) (S : Finset String) : List ℕ :=
  ((cs.zipIdx).filter (fun p => decide (S ⊆ p.1.symbols))).map Prod.snd

mutual
/-- `transform`: spe.py 717-724 (real leaves), 939-945 (atomic), 988-989 (nominal), 248-250 (sums), 463-477 (products). -/
noncomputable def Spe.transform (L : Lib) (Y : String) (t : Tr) : Spe → Res Spe
  | .real k sym d supp cond env => do
    let env' ← envTransform env Y t
    mkReal L ⟨k, d, supp, cond⟩ sym env'
  | .atomic sym v env => do
    let env' ← envTransform env Y t
    .ok (.atomic sym v env')
  | .nominal _ _ => .error .value
  | .sum cs ws => do
    let cs' ← (Spe.transformL L Y t cs).mapM id
    mkSum cs' ws
  | .prod cs =>
    if ∀ s ∈ t.symbols, s ∈ (Spe.prod cs).symbols then
      match holders cs t.symbols with
      | [i] =>
        match (Spe.transformL L Y t cs)[i]? with
        | some r => do
          let s ← r
          mkProd (cs.set i s)
        | none => .error .index
      | _ => .error .assertion
    else .error .assertion
/-- The results of `transform` of the children. -/
noncomputable def Spe.transformL (L : Lib) (Y : String) (t : Tr) : List Spe → List (Res Spe)
  | [] => []
  | s :: ss => Spe.transform L Y t s :: Spe.transformL L Y t ss
end

end Sppl
