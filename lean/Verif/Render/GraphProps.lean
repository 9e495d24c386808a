import Verif.Render.GraphLemmas
import Verif.Spe.Example

set_option linter.all false

/-!
# C55: the graph drawn of an SPE
-/

namespace Sppl
open Classical MeasureTheory

/-- **C55.** If the clock advances between any two calls of `gensym`, `render_networkx_graph` returns a graph that shows, from its root, exactly the tree of the SPE, with one
node for every SPE inside it and every derived variable. -/
theorem C55_graph_partial {g : ℕ → String} (hg : Function.Injective g) {first : Graph → Res String} (hf : FirstOK first) (fmt : ℝ → String) {s : Spe} (hs : s.Weighted) :
    ∃ G m, s.graph g first fmt 0 = .ok (G, m) ∧ Shows G (g 0) (s.drawing fmt) ∧ (G.nodes.map Prod.fst).Nodup ∧ G.nodes.length = (s.drawing fmt).size := by
  obtain ⟨G, d, h1, l, ks, names, h2, h3⟩ := graph_ok (fmt := fmt) hg hf s hs 0
  refine ⟨G, 0 + d, h1, ?_, ?_, ?_⟩
  · rw [h2]; exact .node names h3.root h3.len h3.out h3.kids
  · rw [h3.nodes]; exact List.Nodup.map hg (List.nodup_range')
  · rw [h2, Drawing.size, ← h3.size]
    have := congrArg List.length h3.nodes
    simpa using this

theorem EnvBuilt.own_mem {X : String} {env : Env} (h : EnvBuilt X env) : X ∈ env.map Prod.fst := by
  induction h with
  | base => simp
  | step _ _ _ _ ih => simp only [List.map_append, List.map_cons, List.map_nil, List.mem_append]; exact .inl ih

/-- Well-formed SPEs can be drawn. -/
theorem Spe.WF.weighted {c : Ctx} {L : Lib} {μ : Dist → Measure ℝ} : ∀ (s : Spe), s.WF c L μ → s.Weighted
  | .real k X d supp cond env, h => by
    cases h with
    | real hd he hw hi hm hr => exact .real he.built.own_mem
  | .atomic _ _ _, _ => .atomic
  | .nominal _ _, _ => .nominal
  | .sum cs ws, h => by
    cases h with
    | sum h1 _ h3 _ _ _ => exact .sum (fun s hs => Spe.WF.weighted s (h1 s hs)) h3
  | .prod cs, h => by
    cases h with
    | prod h1 _ _ => exact .prod (fun s hs => Spe.WF.weighted s (h1 s hs))

/-! ## The hypotheses are met -/

/-- A function that finds the first node. -/
noncomputable def someFirst (G : Graph) : Res String := if h : ∃ y l, Topo G (y :: l) then .ok h.choose else .error .value

theorem someFirst_ok : FirstOK someFirst where
  some := by
    intro G x l h
    have h' : ∃ y l, Topo G (y :: l) := ⟨x, l, h⟩
    exact ⟨h'.choose, h'.choose_spec.choose, by rw [someFirst, dif_pos h'], h'.choose_spec.choose_spec⟩
  none := by
    intro G h
    rw [someFirst, dif_neg]
    rintro ⟨y, l, h'⟩
    exact h _ h'

/-- Drawing a mixture of two pairs of coins. -/
example (fmt : ℝ → String) : ∃ G m, (Spe.sum [coins, coins] [1/2, 1/2]).graph (fun n => String.ofList (List.replicate n 'a')) someFirst fmt 0 = .ok (G, m) ∧ G.nodes.length = 7 := by
  obtain ⟨G, m, h, -, -, h'⟩ := C55_graph_partial (g := fun n => String.ofList (List.replicate n 'a')) (fun a b h => by
    have := congrArg (fun s => s.toList.length) h
    simpa using this) someFirst_ok fmt (s := Spe.sum [coins, coins] [1/2, 1/2]) (by
    refine .sum ?_ rfl
    intro s hs
    simp only [List.mem_cons, List.not_mem_nil, or_false] at hs
    have : coins.Weighted := Spe.WF.weighted coins (coins_wf ctx0 (libOf (fun _ => 0)) (fun _ => 0))
    rcases hs with rfl | rfl <;> exact this)
  refine ⟨G, m, h, ?_⟩
  rw [h']
  simp [Spe.drawing, Spe.drawingL, coins, coin, Drawing.size, Drawing.sizeL]

/-! ## Two calls at the same time -/

/-- The name of a node is the time.  If the clock does not advance, the nodes of two coins are one node with an edge to itself. -/
theorem C55_same_time_wrong {first : Graph → Res String} (hf : FirstOK first) (fmt : ℝ → String) (n : ℕ) :
    coins.graph (fun _ => "t") first fmt n = .ok (⟨[("t", .nominal "Z")], [("t", "t", .none)]⟩, n + 3) := by
  have h (l : NodeLabel) : first ⟨[("t", l)], []⟩ = .ok "t" := by
    obtain ⟨y, l', h1, h2⟩ := hf.some (G := ⟨[("t", l)], []⟩) (x := "t") (l := []) ⟨by simp, by simp, by simp, by simp⟩
    have := h2.1
    simp only [List.map_cons, List.map_nil, List.perm_singleton, List.cons.injEq] at this
    rw [h1, this.1]
  simp [coins, coin, Spe.graph, Spe.graphL, addChildren, h, bind, Except.bind, Graph.merge, Graph.addNode, Graph.addEdge]

/-- And then an SPE with this one inside cannot be drawn: `topological_sort` raises. -/
theorem C55_same_time_raises {first : Graph → Res String} (hf : FirstOK first) (fmt : ℝ → String) :
    (Spe.sum [coins, coins] [1/2, 1/2]).graph (fun _ => "t") first fmt 0 = .error .value := by
  have h2 := C55_same_time_wrong hf fmt
  have h3 : first ⟨[("t", .nominal "Z")], [("t", "t", .none)]⟩ = .error .value := by
    refine hf.none ?_
    intro l hl
    exact hl.2.2.1 ("t", "t", .none) (by simp) rfl
  simp [Spe.graph, Spe.graphL, h2, addChildren, h3, bind, Except.bind]

end Sppl
