import Verif.Render.GraphSpec

set_option linter.all false

/-!
# Lemmas on drawing SPEs
-/

namespace Sppl
open Classical

/-! ## Merging graphs with different names -/

theorem addNode_new {G : Graph} {x : String} {l : NodeLabel} (h : x ∉ G.nodes.map Prod.fst) : G.addNode x l = ⟨G.nodes ++ [(x, l)], G.edges⟩ := by
  rw [Graph.addNode, if_neg h]

theorem addEdge_new {G : Graph} {u v : String} {l : EdgeLabel} (h : (u, v) ∉ G.edges.map (fun p => (p.1, p.2.1))) : G.addEdge u v l = ⟨G.nodes, G.edges ++ [(u, v, l)]⟩ := by
  rw [Graph.addEdge, if_neg]
  rintro ⟨e, he⟩
  exact h (List.mem_map.2 ⟨_, he, rfl⟩)

theorem addNodes_new : ∀ (xs : List (String × NodeLabel)) (G : Graph), (xs.map Prod.fst).Nodup → (∀ x ∈ xs.map Prod.fst, x ∉ G.nodes.map Prod.fst) →
    xs.foldl (fun G p => G.addNode p.1 p.2) G = ⟨G.nodes ++ xs, G.edges⟩
  | [], G, _, _ => by simp
  | p :: xs, G, h1, h2 => by
    rw [List.foldl_cons, addNode_new (h2 p.1 (by simp)), addNodes_new xs]
    · simp
    · simp only [List.map_cons, List.nodup_cons] at h1; exact h1.2
    · intro x hx
      simp only [List.map_cons, List.nodup_cons] at h1
      simp only [List.map_append, List.mem_append, List.map_cons, List.map_nil, List.mem_singleton, not_or]
      refine ⟨h2 x (by simp only [List.map_cons, List.mem_cons]; exact .inr hx), ?_⟩
      rintro rfl
      exact h1.1 hx

theorem addEdges_new : ∀ (xs : List (String × String × EdgeLabel)) (G : Graph), (xs.map (fun p => (p.1, p.2.1))).Nodup →
    (∀ x ∈ xs.map (fun p => (p.1, p.2.1)), x ∉ G.edges.map (fun p => (p.1, p.2.1))) →
    xs.foldl (fun G p => G.addEdge p.1 p.2.1 p.2.2) G = ⟨G.nodes, G.edges ++ xs⟩
  | [], G, _, _ => by simp
  | p :: xs, G, h1, h2 => by
    rw [List.foldl_cons, addEdge_new (h2 (p.1, p.2.1) (by simp)), addEdges_new xs]
    · simp
    · simp only [List.map_cons, List.nodup_cons] at h1; exact h1.2
    · intro x hx
      simp only [List.map_cons, List.nodup_cons] at h1
      simp only [List.map_append, List.mem_append, List.map_cons, List.map_nil, List.mem_singleton, not_or]
      refine ⟨h2 x (by simp only [List.map_cons, List.mem_cons]; exact .inr hx), ?_⟩
      rintro rfl
      exact h1.1 hx

/-! ## The invariant -/

/-- The graph `G` with the nodes `g n`, ..., `g (n + d - 1)` is a tree with root `g n`. -/
structure PartOK (g : ℕ → String) (n d : ℕ) (G : Graph) (l : NodeLabel) (ks : List (EdgeLabel × Drawing)) (names : List String) : Prop where
  pos : 0 < d
  nodes : G.nodes.map Prod.fst = (List.range' n d).map g
  edges : ∀ p ∈ G.edges, ∃ i j, n ≤ i ∧ i < j ∧ j < n + d ∧ p.1 = g i ∧ p.2.1 = g j
  nodup : (G.edges.map (fun p => (p.1, p.2.1))).Nodup
  reach : ∀ j, n < j → j < n + d → ∃ i e, n ≤ i ∧ i < j ∧ (g i, g j, e) ∈ G.edges
  root : (g n, l) ∈ G.nodes
  len : names.length = ks.length
  out : G.out (g n) = (ks.map Prod.fst).zip names
  kids : ∀ p ∈ (ks.map Prod.snd).zip names, Shows G p.2 p.1
  size : d = 1 + Drawing.sizeL ks

/-- `PartOK` for some label and children. -/
def GraphOK (g : ℕ → String) (n d : ℕ) (G : Graph) (T : Drawing) : Prop := ∃ l ks names, T = .node l ks ∧ PartOK g n d G l ks names

theorem sizeL_append : ∀ (a b : List (EdgeLabel × Drawing)), Drawing.sizeL (a ++ b) = Drawing.sizeL a + Drawing.sizeL b
  | [], b => by simp [Drawing.sizeL]
  | k :: a, b => by rw [List.cons_append, Drawing.sizeL, Drawing.sizeL, sizeL_append a b]; omega

theorem Shows.mono {x G : Graph} {A : Set String} (hA : ∀ p ∈ x.edges, p.2.1 ∈ A) (h1 : ∀ p ∈ x.nodes, p ∈ G.nodes) (h2 : ∀ y ∈ A, G.out y = x.out y) {y : String} {T : Drawing}
    (h : Shows x y T) (hy : y ∈ A) : Shows G y T := by
  induction h with
  | @node y l ks names hn hlen hout hk ih =>
    refine .node names (h1 _ hn) hlen (by rw [h2 y hy, hout]) (fun p hp => ih p hp ?_)
    have hm : p.2 ∈ names := (List.of_mem_zip hp).2
    have : p.2 ∈ (x.out y).map Prod.snd := by
      rw [hout, List.map_snd_zip]
      · exact hm
      · simp [hlen]
    rw [Graph.out, List.map_map] at this
    obtain ⟨e, he, hpe⟩ := List.mem_map.1 this
    rw [← hpe]
    exact hA e (List.mem_filter.1 he).1

variable {g : ℕ → String} (hg : Function.Injective g)

include hg

theorem PartOK.single (n : ℕ) (l : NodeLabel) : PartOK g n 1 ⟨[(g n, l)], []⟩ l [] [] where
  pos := by omega
  nodes := by simp
  edges := by simp
  nodup := by simp
  reach := by intro j h1 h2; omega
  root := by simp
  len := rfl
  out := by simp [Graph.out]
  kids := by simp
  size := by simp [Drawing.sizeL]

theorem first_root {first : Graph → Res String} (hf : FirstOK first) {n d : ℕ} {G : Graph} {T : Drawing} (h : GraphOK g n d G T) : first G = .ok (g n) := by
  obtain ⟨l, ks, names, -, h⟩ := h
  have hd : List.range' n d = n :: List.range' (n + 1) (d - 1) := by
    obtain ⟨k, hk⟩ : ∃ k, d = k + 1 := ⟨d - 1, by have := h.pos; omega⟩
    subst hk; simp [List.range'_succ]
  have ht : Topo G ((List.range' n d).map g) := by
    refine ⟨by rw [h.nodes], List.Nodup.map hg (List.nodup_range'), ?_, ?_⟩
    · intro p hp he
      obtain ⟨i, j, -, hij, -, h1, h2⟩ := h.edges p hp
      rw [h1, h2] at he
      exact absurd (hg he) (by omega)
    · rw [List.pairwise_map]
      refine (List.pairwise_lt_range' (s := n) (n := d) (step := 1) (by omega)).imp ?_
      intro a b hab e he
      obtain ⟨i, j, -, hij, -, h1, h2⟩ := h.edges _ he
      have := hg h1; have := hg h2; omega
  rw [hd, List.map_cons] at ht
  obtain ⟨y, l', hy, ht'⟩ := hf.some ht
  have hyn : y ∈ G.nodes.map Prod.fst := ht'.1.mem_iff.1 (by simp)
  rw [h.nodes] at hyn
  obtain ⟨j, hj, rfl⟩ := List.mem_map.1 hyn
  rw [List.mem_range'_1] at hj
  by_cases hjn : j = n
  · rw [hy, hjn]
  · exfalso
    obtain ⟨i, e, hi, hij, he⟩ := h.reach j (by omega) (by omega)
    have : g i ∈ G.nodes.map Prod.fst := by rw [h.nodes]; exact List.mem_map.2 ⟨i, by rw [List.mem_range'_1]; omega, rfl⟩
    rw [← ht'.1.mem_iff] at this
    rcases List.mem_cons.1 this with h1 | h1
    · have := hg h1; omega
    · exact (List.pairwise_cons.1 ht'.2.2.2).1 _ h1 e he

/-- Adding the graph of a child. -/
theorem PartOK.step {n d d' : ℕ} {G x : Graph} {l : NodeLabel} {ks : List (EdgeLabel × Drawing)} {names : List String} {T : Drawing} (h : PartOK g n d G l ks names)
    (hx : GraphOK g (n + d) d' x T) (e : EdgeLabel) : PartOK g n (d + d') ((G.merge x).addEdge (g n) (g (n + d)) e) l (ks ++ [(e, T)]) (names ++ [g (n + d)]) := by
  obtain ⟨l', ks', names', rfl, hx⟩ := hx
  have hd := h.pos
  have hd' := hx.pos
  have e1 : G.merge x = ⟨G.nodes ++ x.nodes, G.edges ++ x.edges⟩ := by
    rw [Graph.merge, addNodes_new, addEdges_new]
    · exact hx.nodup
    · intro p hp hp'
      obtain ⟨q, hq, rfl⟩ := List.mem_map.1 hp
      obtain ⟨q', hq', he⟩ := List.mem_map.1 hp'
      simp only [Prod.mk.injEq] at he
      obtain ⟨i, j, h1, h2, h3, h4, h5⟩ := hx.edges q hq
      obtain ⟨i', j', h1', h2', h3', h4', h5'⟩ := h.edges q' hq'
      rw [h4, h4'] at he
      have := hg he.1; omega
    · rw [hx.nodes]; exact List.Nodup.map hg (List.nodup_range')
    · intro y hy hy'
      rw [hx.nodes] at hy; rw [h.nodes] at hy'
      obtain ⟨i, hi, rfl⟩ := List.mem_map.1 hy
      obtain ⟨j, hj, hij⟩ := List.mem_map.1 hy'
      have := hg hij
      rw [List.mem_range'_1] at hi hj; omega
  have e2 : (g n, g (n + d)) ∉ (G.edges ++ x.edges).map (fun p => (p.1, p.2.1)) := by
    intro hp
    rw [List.map_append, List.mem_append] at hp
    rcases hp with hp | hp
    · obtain ⟨q, hq, he⟩ := List.mem_map.1 hp
      simp only [Prod.mk.injEq] at he
      obtain ⟨i, j, h1, h2, h3, h4, h5⟩ := h.edges q hq
      have := hg (h5.symm.trans he.2); omega
    · obtain ⟨q, hq, he⟩ := List.mem_map.1 hp
      simp only [Prod.mk.injEq] at he
      obtain ⟨i, j, h1, h2, h3, h4, h5⟩ := hx.edges q hq
      have := hg (h4.symm.trans he.1); omega
  rw [e1, addEdge_new e2]
  have outG : ∀ i, i < n + d → i ≠ n → Graph.out ⟨G.nodes ++ x.nodes, G.edges ++ x.edges ++ [(g n, g (n + d), e)]⟩ (g i) = G.out (g i) := by
    intro i hi hn
    simp only [Graph.out, List.filter_append, List.map_append]
    have a1 : x.edges.filter (fun e => decide (e.1 = g i)) = [] := by
      rw [List.filter_eq_nil_iff]
      intro q hq hq'
      obtain ⟨i', j, h1, h2, h3, h4, h5⟩ := hx.edges q hq
      rw [h4] at hq'
      have := hg (of_decide_eq_true hq'); omega
    have a2 : [(g n, g (n + d), e)].filter (fun e => decide (e.1 = g i)) = [] := by
      rw [List.filter_eq_nil_iff]
      intro q hq hq'
      rw [List.mem_singleton] at hq
      subst hq
      exact hn (hg (of_decide_eq_true hq')).symm
    rw [a1, a2]; simp
  have outx : ∀ i, n + d ≤ i → Graph.out ⟨G.nodes ++ x.nodes, G.edges ++ x.edges ++ [(g n, g (n + d), e)]⟩ (g i) = x.out (g i) := by
    intro i hi
    simp only [Graph.out, List.filter_append, List.map_append]
    have a1 : G.edges.filter (fun e => decide (e.1 = g i)) = [] := by
      rw [List.filter_eq_nil_iff]
      intro q hq hq'
      obtain ⟨i', j, h1, h2, h3, h4, h5⟩ := h.edges q hq
      rw [h4] at hq'
      have := hg (of_decide_eq_true hq'); omega
    have a2 : [(g n, g (n + d), e)].filter (fun e => decide (e.1 = g i)) = [] := by
      rw [List.filter_eq_nil_iff]
      intro q hq hq'
      rw [List.mem_singleton] at hq
      subst hq
      have := hg (of_decide_eq_true hq'); omega
    rw [a1, a2]; simp
  have outn : Graph.out ⟨G.nodes ++ x.nodes, G.edges ++ x.edges ++ [(g n, g (n + d), e)]⟩ (g n) = G.out (g n) ++ [(e, g (n + d))] := by
    simp only [Graph.out, List.filter_append, List.map_append]
    have a1 : x.edges.filter (fun e => decide (e.1 = g n)) = [] := by
      rw [List.filter_eq_nil_iff]
      intro q hq hq'
      obtain ⟨i', j, h1, h2, h3, h4, h5⟩ := hx.edges q hq
      rw [h4] at hq'
      have := hg (of_decide_eq_true hq'); omega
    rw [a1]; simp
  have showx : Shows ⟨G.nodes ++ x.nodes, G.edges ++ x.edges ++ [(g n, g (n + d), e)]⟩ (g (n + d)) (.node l' ks') := by
    refine Shows.mono (A := {y | ∃ i, n + d ≤ i ∧ y = g i}) ?_ (fun p hp => List.mem_append_right _ hp) ?_ (.node names' hx.root hx.len hx.out hx.kids) ⟨n + d, le_refl _, rfl⟩
    · intro p hp
      obtain ⟨i', j, h1, h2, h3, h4, h5⟩ := hx.edges p hp
      exact ⟨j, by omega, h5⟩
    · rintro y ⟨i, hi, rfl⟩
      exact outx i hi
  refine ⟨by omega, ?_, ?_, ?_, ?_, List.mem_append_left _ h.root, by simp [h.len], ?_, ?_, ?_⟩
  · simp only [List.map_append, h.nodes, hx.nodes]
    rw [← List.map_append, List.range'_append_1]
  · intro p hp
    simp only [List.mem_append, List.mem_singleton] at hp
    rcases hp with (hp | hp) | rfl
    · obtain ⟨i, j, h1, h2, h3, h4, h5⟩ := h.edges p hp; exact ⟨i, j, h1, h2, by omega, h4, h5⟩
    · obtain ⟨i, j, h1, h2, h3, h4, h5⟩ := hx.edges p hp; exact ⟨i, j, by omega, h2, by omega, h4, h5⟩
    · exact ⟨n, n + d, le_refl _, by omega, by omega, rfl, rfl⟩
  · rw [List.map_append, List.nodup_append]
    refine ⟨?_, by simp, ?_⟩
    · rw [List.map_append, List.nodup_append]
      refine ⟨h.nodup, hx.nodup, ?_⟩
      intro a ha b hb hab
      obtain ⟨q, hq, rfl⟩ := List.mem_map.1 hb
      obtain ⟨q', hq', he⟩ := List.mem_map.1 ha
      rw [hab] at he
      simp only [Prod.mk.injEq] at he
      obtain ⟨i, j, h1, h2, h3, h4, h5⟩ := hx.edges q hq
      obtain ⟨i', j', h1', h2', h3', h4', h5'⟩ := h.edges q' hq'
      rw [h4, h4'] at he
      have := hg he.1; omega
    · intro a ha b hb hab
      simp only [List.map_cons, List.map_nil, List.mem_singleton] at hb
      rw [hb] at hab
      rw [hab] at ha
      exact e2 ha
  · intro j h1 h2
    by_cases hj : j < n + d
    · obtain ⟨i, e', h3, h4, h5⟩ := h.reach j h1 hj
      exact ⟨i, e', h3, h4, by simp [h5]⟩
    · by_cases hj' : j = n + d
      · exact ⟨n, e, le_refl _, h1, by simp [hj']⟩
      · obtain ⟨i, e', h3, h4, h5⟩ := hx.reach j (by omega) (by omega)
        exact ⟨i, e', by omega, h4, by simp [h5]⟩
  · rw [outn, h.out, List.map_append, List.zip_append (by simp [h.len])]
    simp
  · intro p hp
    rw [List.map_append, List.zip_append (by simp [h.len]), List.mem_append] at hp
    rcases hp with hp | hp
    · refine Shows.mono (A := {y | ∃ i, i ≠ n ∧ i < n + d ∧ y = g i}) ?_ (fun p hp => List.mem_append_left _ hp) ?_ (h.kids p hp) ?_
      · intro p hp
        obtain ⟨i', j, h1, h2, h3, h4, h5⟩ := h.edges p hp
        exact ⟨j, by omega, by omega, h5⟩
      · rintro y ⟨i, hi, hi', rfl⟩
        exact outG i hi' hi
      · have hm : p.2 ∈ names := (List.of_mem_zip hp).2
        have : p.2 ∈ (G.out (g n)).map Prod.snd := by
          rw [h.out, List.map_snd_zip]
          · exact hm
          · simp [h.len]
        rw [Graph.out, List.map_map] at this
        obtain ⟨q, hq, hpq⟩ := List.mem_map.1 this
        obtain ⟨i', j, h1, h2, h3, h4, h5⟩ := h.edges q (List.mem_filter.1 hq).1
        exact ⟨j, by omega, by omega, by rw [← hpq]; exact h5⟩
    · simp only [List.map_cons, List.map_nil, List.zip_cons_cons, List.zip_nil_right, List.mem_singleton] at hp
      subst hp
      exact showx
  · rw [sizeL_append, Drawing.sizeL, Drawing.sizeL, Drawing.size]
    have := h.size; have := hx.size; omega

theorem leafGraph_ok {n : ℕ} {l : NodeLabel} : ∀ (env : Env) (d : ℕ) (G : Graph) (ks : List (EdgeLabel × Drawing)) (names : List String), PartOK g n d G l ks names →
    ∃ d' names', (leafGraph g (g n) env (n + d) G).2 = n + d' ∧
      PartOK g n d' (leafGraph g (g n) env (n + d) G).1 l (ks ++ env.map (fun p => (.var p.1, .node (.tr p.2) []))) names'
  | [], d, G, ks, names, h => ⟨d, names, rfl, by simpa [leafGraph] using h⟩
  | p :: env, d, G, ks, names, h => by
    have h1 := h.step hg ⟨_, _, _, rfl, PartOK.single hg (n + d) (.tr p.2)⟩ (.var p.1)
    obtain ⟨d', names', h2, h3⟩ := leafGraph_ok env (d + 1) _ _ _ h1
    refine ⟨d', names', h2, ?_⟩
    rw [List.map_cons]
    simpa [leafGraph, Graph.merge, Nat.add_assoc] using h3

/-- The graphs of children, with consecutive names. -/
inductive GraphsOK (g : ℕ → String) : ℕ → List Graph → List Drawing → ℕ → Prop
  | nil {n} : GraphsOK g n [] [] n
  | cons {n d x xs T Ts m} : GraphOK g n d x T → GraphsOK g (n + d) xs Ts m → GraphsOK g n (x :: xs) (T :: Ts) m

theorem addChildren_ok {first : Graph → Res String} (hf : FirstOK first) {n : ℕ} {l : NodeLabel} : ∀ (xs : List Graph) (Ts : List Drawing) (ls : List EdgeLabel) (d m : ℕ) (G : Graph)
    (ks : List (EdgeLabel × Drawing)) (names : List String), PartOK g n d G l ks names → GraphsOK g (n + d) xs Ts m → xs.length = ls.length →
    ∃ G' d' names', addChildren first (g n) xs ls G = .ok G' ∧ m = n + d' ∧ PartOK g n d' G' l (ks ++ ls.zip Ts) names'
  | [], Ts, ls, d, m, G, ks, names, h, hx, hl => by
    cases hx
    exact ⟨G, d, names, by rw [addChildren], rfl, by simpa using h⟩
  | x :: xs, Ts, [], d, m, G, ks, names, h, hx, hl => by simp at hl
  | x :: xs, Ts, e :: ls, d, m, G, ks, names, h, hx, hl => by
    cases hx with
    | @cons _ d1 _ _ T Ts' _ h1 h2 =>
      have h3 := h.step hg h1 e
      rw [Nat.add_assoc] at h2
      obtain ⟨G', d', names', h4, h5, h6⟩ := addChildren_ok hf xs Ts' ls (d + d1) m _ _ _ h3 h2 (by simpa using hl)
      refine ⟨G', d', names', ?_, h5, ?_⟩
      · rw [addChildren, first_root hg hf h1]; exact h4
      · simpa using h6

mutual
theorem graph_ok {first : Graph → Res String} (hf : FirstOK first) {fmt : ℝ → String} : ∀ (s : Spe), s.Weighted → ∀ n, ∃ G d, s.graph g first fmt n = .ok (G, n + d) ∧
    GraphOK g n d G (s.drawing fmt)
  | .nominal X dist, _, n => ⟨_, 1, by rw [Spe.graph], _, _, _, by rw [Spe.drawing], PartOK.single hg n _⟩
  | .atomic X v env, _, n => ⟨_, 1, by rw [Spe.graph], _, _, _, by rw [Spe.drawing], PartOK.single hg n _⟩
  | .real k X d supp cond env, h, n => by
    cases h with
    | real hX =>
      rw [Spe.graph]
      split
      · obtain ⟨d', names', h2, h3⟩ := leafGraph_ok hg (env.filter (fun p => decide (p.1 ≠ X))) 1 _ _ _ (PartOK.single hg n (.real X d.name (d.kwds.map Prod.snd)))
        refine ⟨_, d', congrArg Except.ok (Prod.ext rfl h2), _, _, names', by rw [Spe.drawing, List.nil_append], h3⟩
      · rename_i hlen
        have : env.filter (fun p => decide (p.1 ≠ X)) = [] := by
          match env, hX, hlen with
          | [p], hX, _ =>
            simp only [List.map_cons, List.map_nil, List.mem_singleton] at hX
            simp [hX]
          | p :: q :: r, _, hlen => simp at hlen
        exact ⟨_, 1, rfl, _, _, [], by rw [Spe.drawing, this, List.map_nil], PartOK.single hg n _⟩
  | .sum cs ws, h, n => by
    cases h with
    | sum h1 h2 =>
      obtain ⟨xs, m, h3, h4, h5⟩ := graphL_ok (fmt := fmt) hf cs h1 (n + 1)
      obtain ⟨G, d, names, h6, rfl, h7⟩ := addChildren_ok hg hf xs _ (ws.map (fun w => EdgeLabel.weight (fmt w))) 1 m _ _ _ (PartOK.single hg n .plus) h4 (by simp [h5, h2])
      refine ⟨G, d, ?_, _, _, _, by rw [Spe.drawing, List.nil_append], h7⟩
      rw [Spe.graph, h3]
      simp only [bind, Except.bind, h6]
  | .prod cs, h, n => by
    cases h with
    | prod h1 =>
      obtain ⟨xs, m, h3, h4, h5⟩ := graphL_ok (fmt := fmt) hf cs h1 (n + 1)
      obtain ⟨G, d, names, h6, rfl, h7⟩ := addChildren_ok hg hf xs _ (cs.map (fun _ => EdgeLabel.none)) 1 m _ _ _ (PartOK.single hg n .times) h4 (by simp [h5])
      refine ⟨G, d, ?_, _, _, _, by rw [Spe.drawing, List.nil_append], h7⟩
      rw [Spe.graph, h3]
      simp only [bind, Except.bind, h6]
theorem graphL_ok {first : Graph → Res String} (hf : FirstOK first) {fmt : ℝ → String} : ∀ (cs : List Spe), (∀ s ∈ cs, s.Weighted) → ∀ n, ∃ xs m,
    Spe.graphL g first fmt cs n = .ok (xs, m) ∧ GraphsOK g n xs (Spe.drawingL fmt cs) m ∧ xs.length = cs.length
  | [], _, n => ⟨[], n, by rw [Spe.graphL], by rw [Spe.drawingL]; exact .nil, rfl⟩
  | s :: ss, h, n => by
    obtain ⟨G, d, h1, h2⟩ := graph_ok hf s (h s (by simp)) n
    obtain ⟨xs, m, h3, h4, h5⟩ := graphL_ok hf ss (fun t ht => h t (by simp [ht])) (n + d)
    refine ⟨G :: xs, m, ?_, by rw [Spe.drawingL]; exact .cons h2 h4, by simp [h5]⟩
    rw [Spe.graphL, h1]
    simp only [bind, Except.bind, h3]
end

end Sppl
