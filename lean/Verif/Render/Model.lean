import Verif.Spe.Spec

set_option linter.all false

/-!
# Model of render.py: SPEs as nested lists
-/

namespace Sppl
open Classical

/-- The Python values that occur in a rendering. -/
inductive Nest
  /-- A string. -/
  | str (x : String)
  /-- A number. -/
  | num (x : ℝ)
  /-- An integer. -/
  | int (n : ℕ)
  /-- A boolean. -/
  | bool (b : Bool)
  /-- `dict(spe.env)`. -/
  | env (e : Env)
  /-- A dictionary from strings to floats. -/
  | dict (d : List (String × ℝ))
  /-- `(dist.name, args, kwds)`. -/
  | dist (name : String) (args : List ℝ) (kwds : List (String × ℝ))
  /-- An `Interval`. -/
  | ivl (i : Ivl EReal)
  /-- A pair of strings. -/
  | pair (x y : String)
  /-- A list. -/
  | list (l : List Nest)

/-- `[key, value]`. -/
def Nest.field (k : String) (v : Nest) : Nest := .list [.str k, v]

/-- A list of strings. -/
def Nest.strs (l : List String) : Nest := .list (l.map .str)

/-- A list of numbers. -/
def Nest.nums (l : List ℝ) : Nest := .list (l.map .num)

mutual
/-- render.py 27-68 `render_nested_lists`.  `ord` is the order in which Python lists a set of symbols.  `NominalLeaf.env` is `{symbol: symbol}`
(spe.py 968-983).  The leaves over the reals are instances of `RealLeaf`, which is tested before `DiscreteLeaf` (render.py 41, 49), so
the branch of `DiscreteLeaf` is never taken.  The weights of the model are the exponentials. -/
def Spe.nested (ord : Finset String → List String) : Spe → Nest
  | .nominal X dist => .list [.str "NominalLeaf", .list [.field "symbol" (.str X), .field "env" (.env [(X, .id X)]),
      .field "dist" (.dict (dist.map (fun p => (p.1, (p.2 : ℝ)))))]]
  | .atomic X v env => .list [.str "AtomicLeaf", .list [.field "symbol" (.str X), .field "value" (.num v), .field "env" (.env env)]]
  | .real _ X d supp cond env => .list [.str "RealLeaf", .list [.field "symbol" (.str X), .field "env" (.env env),
      .field "dist" (.dist d.name d.args d.kwds), .field "support" (.ivl supp), .field "conditioned" (.bool cond)]]
  | .sum cs ws => .list [.str "SumSPE", .list [.field "symbols" (.strs (ord (Spe.sum cs ws).symbols)), .field "weights" (.nums ws),
      .field "n_children" (.int cs.length), .field "children" (.list (Spe.nestedL ord cs))]]
  | .prod cs => .list [.str "ProductSPE", .list [.field "symbols" (.strs (ord (Spe.prod cs).symbols)), .field "n_children" (.int cs.length),
      .field "children" (.list (Spe.nestedL ord cs))]]
/-- See `Spe.nested`. -/
def Spe.nestedL (ord : Finset String → List String) : List Spe → List Nest
  | [] => []
  | s :: ss => s.nested ord :: Spe.nestedL ord ss
end

mutual
/-- render.py 14-25 `render_nested_lists_concise`.  `str` prints a transform. -/
def Spe.concise (str : Tr → String) : Spe → Nest
  | .nominal X _ => .list [.pair X (str (.id X))]
  | .atomic _ _ env => .list (env.map (fun p => .pair p.1 (str p.2)))
  | .real _ _ _ _ _ env => .list (env.map (fun p => .pair p.1 (str p.2)))
  | .sum cs _ => .list [.str ("+(" ++ toString cs.length ++ ")"), .list (Spe.conciseL str cs)]
  | .prod cs => .list [.str ("*(" ++ toString cs.length ++ ")"), .list (Spe.conciseL str cs)]
/-- See `Spe.concise`. -/
def Spe.conciseL (str : Tr → String) : List Spe → List Nest
  | [] => []
  | s :: ss => s.concise str :: Spe.conciseL str ss
end

end Sppl
