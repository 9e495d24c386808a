import Verif.Spe.Spec

set_option linter.all false

/-!
# Model of magics/render.py: SPEs as graphs

The names of the nodes are made of the time at which `gensym` is called (magics/render.py 19): `g n` is the name that the `n`-th call returns.
-/

namespace Sppl
open Classical

/-- The label of a node (magics/render.py 25, 30, 37, 42, 48, 60).  The text is not modelled, only what it is made of. -/
inductive NodeLabel
  /-- `'%s\n%s' % (symbol, 'Nominal')`. -/
  | nominal (X : String)
  /-- `'%s\n%s(%s)' % (symbol, 'Atomic', value)`. -/
  | atomic (X : String) (v : ℝ)
  /-- `'%s\n%s%s' % (symbol, name, values of the keyword arguments)`. -/
  | real (X : String) (name : String) (kwds : List ℝ)
  /-- `str(v)` of a transform. -/
  | tr (t : Tr)
  /-- The plus sign. -/
  | plus
  /-- The multiplication sign. -/
  | times

/-- The label of an edge (magics/render.py 43, 55, 67). -/
inductive EdgeLabel
  /-- The name of a derived variable. -/
  | var (X : String)
  /-- `'%1.3f' % (exp(weight),)`. -/
  | weight (x : String)
  /-- No label. -/
  | none

/-- `networkx.DiGraph`: nodes in the order in which they were added, with their label, and edges. -/
structure Graph where
  nodes : List (String × NodeLabel)
  edges : List (String × String × EdgeLabel)

/-- `DiGraph.add_node`: a node that exists gets the new label. -/
noncomputable def Graph.addNode (G : Graph) (x : String) (l : NodeLabel) : Graph :=
  if x ∈ G.nodes.map Prod.fst then { G with nodes := G.nodes.map (fun p => if p.1 = x then (x, l) else p) }
  else { G with nodes := G.nodes ++ [(x, l)] }

/-- `DiGraph.add_edge`: an edge that exists gets the new label.  (Nodes that do not exist would be added; the code only adds edges between nodes that exist.) -/
noncomputable def Graph.addEdge (G : Graph) (u v : String) (l : EdgeLabel) : Graph :=
  if ∃ e, (u, v, e) ∈ G.edges then { G with edges := G.edges.map (fun p => if p.1 = u ∧ p.2.1 = v then (u, v, l) else p) }
  else { G with edges := G.edges ++ [(u, v, l)] }

/-- magics/render.py 52-53, 64-65: `G.add_nodes_from(x.nodes.data())`, `G.add_edges_from(x.edges.data())`. -/
noncomputable def Graph.merge (G x : Graph) : Graph :=
  let G' := x.nodes.foldl (fun G p => G.addNode p.1 p.2) G
  x.edges.foldl (fun G p => G.addEdge p.1 p.2.1 p.2.2) G'

/-- magics/render.py 38-43: the derived variables of a leaf, and the number of calls of `gensym` so far. -/
noncomputable def leafGraph (g : ℕ → String) (root : String) : Env → ℕ → Graph → Graph × ℕ
  | [], n, G => (G, n)
  | p :: env, n, G => leafGraph g root env (n + 1) ((G.addNode (g n) (.tr p.2)).addEdge root (g n) (.var p.1))

/-- magics/render.py 51-55, 63-67: the loop over the graphs of the children; `labels` are the labels of the edges, `first` is
`list(topological_sort(x))[0]`. -/
noncomputable def addChildren (first : Graph → Res String) (root : String) : List Graph → List EdgeLabel → Graph → Res Graph
  | [], _, G => .ok G
  | _ :: _, [], _ => .error .index
  | x :: xs, l :: ls, G => do
    let r ← first x
    addChildren first root xs ls ((G.merge x).addEdge root r l)

mutual
/-- magics/render.py 21-69 `render_networkx_graph`; `n` is the number of calls of `gensym` so far, `fmt` formats weights. -/
noncomputable def Spe.graph (g : ℕ → String) (first : Graph → Res String) (fmt : ℝ → String) : Spe → ℕ → Res (Graph × ℕ)
  | .nominal X _, n => .ok (⟨[(g n, .nominal X)], []⟩, n + 1)
  | .atomic X v _, n => .ok (⟨[(g n, .atomic X v)], []⟩, n + 1)
  | .real _ X d _ _ env, n =>
    let G : Graph := ⟨[(g n, .real X d.name (d.kwds.map Prod.snd))], []⟩
    .ok (if 1 < env.length then leafGraph g (g n) (env.filter (fun p => decide (p.1 ≠ X))) (n + 1) G else (G, n + 1))
  | .sum cs ws, n => do
    let r ← Spe.graphL g first fmt cs (n + 1)
    let G ← addChildren first (g n) r.1 (ws.map (fun w => .weight (fmt w))) ⟨[(g n, .plus)], []⟩
    .ok (G, r.2)
  | .prod cs, n => do
    let r ← Spe.graphL g first fmt cs (n + 1)
    let G ← addChildren first (g n) r.1 (cs.map (fun _ => .none)) ⟨[(g n, .times)], []⟩
    .ok (G, r.2)
/-- `[render_networkx_graph(c) for c in spe.children]`. -/
noncomputable def Spe.graphL (g : ℕ → String) (first : Graph → Res String) (fmt : ℝ → String) : List Spe → ℕ → Res (List Graph × ℕ)
  | [], n => .ok ([], n)
  | s :: ss, n => do
    let a ← s.graph g first fmt n
    let b ← Spe.graphL g first fmt ss a.2
    .ok (a.1 :: b.1, b.2)
end

end Sppl
