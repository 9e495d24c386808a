import Verif.Render.Graph

set_option linter.all false

/-!
# What a drawing of an SPE should show
-/

namespace Sppl
open Classical

/-- A tree with labels at the nodes and at the edges. -/
inductive Drawing
  | node (l : NodeLabel) (kids : List (EdgeLabel × Drawing))

mutual
/-- The number of nodes. -/
def Drawing.size : Drawing → ℕ
  | .node _ ks => 1 + Drawing.sizeL ks
/-- See `Drawing.size`. -/
def Drawing.sizeL : List (EdgeLabel × Drawing) → ℕ
  | [] => 0
  | k :: ks => k.2.size + Drawing.sizeL ks
end

mutual
/-- The drawing of an SPE: a node for every SPE inside it and for every derived variable of a leaf over the reals. -/
def Spe.drawing (fmt : ℝ → String) : Spe → Drawing
  | .nominal X _ => .node (.nominal X) []
  | .atomic X v _ => .node (.atomic X v) []
  | .real _ X d _ _ env => .node (.real X d.name (d.kwds.map Prod.snd)) ((env.filter (fun p => decide (p.1 ≠ X))).map (fun p => (.var p.1, .node (.tr p.2) [])))
  | .sum cs ws => .node .plus ((ws.map (fun w => EdgeLabel.weight (fmt w))).zip (Spe.drawingL fmt cs))
  | .prod cs => .node .times ((cs.map (fun _ => EdgeLabel.none)).zip (Spe.drawingL fmt cs))
/-- See `Spe.drawing`. -/
def Spe.drawingL (fmt : ℝ → String) : List Spe → List Drawing
  | [] => []
  | s :: ss => s.drawing fmt :: Spe.drawingL fmt ss
end

/-- The children of a node of a graph, with the labels of the edges. -/
noncomputable def Graph.out (G : Graph) (x : String) : List (EdgeLabel × String) := (G.edges.filter (fun e => decide (e.1 = x))).map (fun e => (e.2.2, e.2.1))

/-- The graph `G` shows the tree at its node `x`. -/
inductive Shows (G : Graph) : String → Drawing → Prop
  | node {x l ks} (names : List String) : (x, l) ∈ G.nodes → names.length = ks.length → G.out x = (ks.map Prod.fst).zip names →
      (∀ p ∈ (ks.map Prod.snd).zip names, Shows G p.2 p.1) → Shows G x (.node l ks)

/-- A list of all nodes such that edges lead from earlier to later nodes. -/
def Topo (G : Graph) (l : List String) : Prop := l.Perm (G.nodes.map Prod.fst) ∧ l.Nodup ∧ (∀ p ∈ G.edges, p.1 ≠ p.2.1) ∧ l.Pairwise (fun a b => ∀ e, (b, a, e) ∉ G.edges)

/-- `first` returns the first node of some such list, and raises if there is none. -/
structure FirstOK (first : Graph → Res String) : Prop where
  some : ∀ {G x l}, Topo G (x :: l) → ∃ y l', first G = .ok y ∧ Topo G (y :: l')
  none : ∀ {G}, (∀ l, ¬ Topo G l) → first G = .error .value

/-- All weights are there, and leaves have their own variable. -/
inductive Spe.Weighted : Spe → Prop
  | real {k X d supp cond env} : X ∈ env.map Prod.fst → Spe.Weighted (.real k X d supp cond env)
  | atomic {X v env} : Spe.Weighted (.atomic X v env)
  | nominal {X dist} : Spe.Weighted (.nominal X dist)
  | sum {cs ws} : (∀ s ∈ cs, Spe.Weighted s) → cs.length = ws.length → Spe.Weighted (.sum cs ws)
  | prod {cs} : (∀ s ∈ cs, Spe.Weighted s) → Spe.Weighted (.prod cs)

end Sppl
