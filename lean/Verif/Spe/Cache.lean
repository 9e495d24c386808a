import Verif.Spe.Model

/-!
# Model of `spe_cache_duplicate_subtrees` in `/repo/src/spe.py`
-/

namespace Sppl
open Classical

mutual
/-- `size`: spe.py 157-158 (branches), 604-605 (leaves). -/
def Spe.size : Spe → ℕ
  | .real _ _ _ _ _ _ => 1
  | .atomic _ _ _ => 1
  | .nominal _ _ => 1
  | .sum cs _ => 1 + (Spe.sizeL cs).sum
  | .prod cs => 1 + (Spe.sizeL cs).sum
/-- `size` of the children. -/
def Spe.sizeL : List Spe → List ℕ
  | [] => []
  | s :: ss => s.size :: Spe.sizeL ss
end

/-- The dictionary `memo` of spe.py 1045: its keys are its values; each is stored with its hash. -/
abbrev Cache := List (ℤ × Spe)

/-- `memo[spe]` (spe.py 1047-1049, 1051, 1057): a key with the same hash that is equal. -/
noncomputable def Cache.find (hash : Spe → ℤ) (m : Cache) (s : Spe) : Option Spe :=
  (m.find? (fun e => decide (e.1 = hash s) && e.2.eqPy s)).map Prod.snd

/-- spe.py 1046-1049: leaves; `spe not in memo` computes the hash. -/
noncomputable def cacheLeaf (hash : Spe → ℤ) (s : Spe) (m : Cache) : Res (Spe × Cache) :=
  if ¬ s.hashable then .error .type
  else
    match m.find hash s with
    | some t => .ok (t, m)
    | none => .ok (s, m ++ [(hash s, s)])

mutual
/-- spe.py 1045-1058 `spe_cache_duplicate_subtrees`.  The code enters a new branch in the dictionary first and then replaces its children in
place; while it does so `children` is a list, which is not equal to any tuple, so that the entry is not found.  Here it is entered with
its new children.  `return memo[spe]` computes the hash again, and raises `KeyError` if the new children change it. -/
noncomputable def Spe.cache (hash : Spe → ℤ) : Spe → Cache → Res (Spe × Cache)
  | .real k sym d supp cond env, m => cacheLeaf hash (.real k sym d supp cond env) m
  | .atomic sym v env, m => cacheLeaf hash (.atomic sym v env) m
  | .nominal sym dist, m => cacheLeaf hash (.nominal sym dist) m
  | .sum cs ws, m =>
    if ¬ (Spe.sum cs ws).hashable then .error .type
    else match m.find hash (.sum cs ws) with
    | some t => .ok (t, m)
    | none => do
      let r ← Spe.cacheL hash cs m
      if hash (.sum r.1 ws) = hash (.sum cs ws) then .ok (.sum r.1 ws, r.2 ++ [(hash (.sum cs ws), .sum r.1 ws)]) else .error .key
  | .prod cs, m =>
    if ¬ (Spe.prod cs).hashable then .error .type
    else match m.find hash (.prod cs) with
    | some t => .ok (t, m)
    | none => do
      let r ← Spe.cacheL hash cs m
      if hash (.prod r.1) = hash (.prod cs) then .ok (.prod r.1, r.2 ++ [(hash (.prod cs), .prod r.1)]) else .error .key
/-- spe.py 1054-1055: the children, one after the other. -/
noncomputable def Spe.cacheL (hash : Spe → ℤ) : List Spe → Cache → Res (List Spe × Cache)
  | [], m => .ok ([], m)
  | s :: ss, m => do
    let r ← Spe.cache hash s m
    let q ← Spe.cacheL hash ss r.2
    .ok (r.1 :: q.1, q.2)
end

end Sppl
