import Verif.Memo.Model

/-!
# Specification of memo tables: what is alive, what a correct table is, and which tables can arise
-/

namespace Sppl
open Classical

mutual
/-- All objects of the node are alive: the identity of each denotes that object. -/
def Node.Live (h : Heap) : Node → Prop
  | .leaf i s => h i = some s ∧ s.isLeaf = true
  | .sum i cs ws => h i = some (.sum (Node.speL cs) ws) ∧ Node.LiveL h cs
  | .prod i cs => h i = some (.prod (Node.speL cs)) ∧ Node.LiveL h cs
/-- See `Node.Live`. -/
def Node.LiveL (h : Heap) : List Node → Prop
  | [] => True
  | n :: ns => n.Live h ∧ Node.LiveL h ns
end

/-- No object of the first heap has been replaced. -/
def Heap.Le (h h' : Heap) : Prop := ∀ i s, h i = some s → h' i = some s

/-- There are finitely many objects. -/
def Heap.Fin (h : Heap) : Prop := {i | h i ≠ none}.Finite

/-- The identities of objects that are alive are not given to other objects. -/
def Alloc.OK (al : Alloc) : Prop := ∀ st i F s, st.heap.Fin →
  (al st i F s).1.spe = s ∧ (al st i F s).1.Live (al st i F s).2 ∧ Heap.Le st.heap (al st i F s).2 ∧ (al st i F s).2.Fin

/-- A leaf has its own variable among its variables. -/
def Spe.BaseOK (s : Spe) : Prop := ∀ sym env, s.leafEnv = some (sym, env) → sym ∈ env.map Prod.fst ∧ env.get sym = .id sym

/-- The states that arise from any queries on nodes that are alive, with any objects made in between. -/
inductive Reach (c : Ctx) (L : Lib) (hash : Spe → ℤ) (n : ℕ) (al : Alloc) : St → Prop
  | start {h : Heap} : h.Fin → Reach c L hash n al (.new h)
  | objects {st : St} {h : Heap} : Reach c L hash n al st → Heap.Le st.heap h → h.Fin → Reach c L hash n al { st with heap := h }
  | logprob {st : St} {t : Node} {e : Ev} : Reach c L hash n al st → t.Live st.heap → t.spe.BaseOK → Reach c L hash n al (t.logprob c L n e st).2
  | condition {st : St} {t : Node} {e : Ev} : Reach c L hash n al st → t.Live st.heap → t.spe.BaseOK → Reach c L hash n al (t.condition c L hash n al e st).2
  | logpdf {st : St} {t : Node} {a : Point} : Reach c L hash n al st → t.Live st.heap → Reach c L hash n al (t.logpdf L a st).2
  | constrain {st : St} {t : Node} {a : Point} : Reach c L hash n al st → t.Live st.heap → Reach c L hash n al (t.constrain L al a st).2

end Sppl
