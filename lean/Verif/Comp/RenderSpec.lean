import Verif.Comp.Render
import Verif.Comp.Spec

/-!
# Specification of `render_sppl`: the SPEs whose source can be compiled
-/

namespace Sppl
open Classical MeasureTheory

/-- The values of the variables in `S`. -/
def keep (S : Finset String) (ω : Asg) : Asg := fun x => if x ∈ S then ω x else none

/-- Python reads the text of `t` as an expression with the value `r`, which has the same values as `t`. -/
structure Tr.ReadsAs (D : List String) (H : PyHost) (c : Ctx) (t r : Tr) : Prop where
  read : ∃ e, t.source = .ok e ∧ (∃ x ∈ e.names, x ∈ t.symbols) ∧ (∀ x ∈ e.names, x ∉ D) ∧
    ∀ ρ : NS, (∀ x ∈ t.symbols, ρ x = some (.tr (.id x))) → e.eval H c ρ = .ok (.tr r)
  eval : ∀ ω, r.eval ω = t.eval ω
  made : r.MadeG true c
  regular : ∀ ω, t.Regular ω → r.Regular ω

/-- `choice` of a dictionary is the nominal distribution. -/
structure PyHost.Choice (D : List String) (H : PyHost) : Prop where
  mem : "choice" ∈ D
  call : ∀ dist : List (String × ℚ), (dist.map Prod.fst).Nodup →
    H.call "choice" [.coll (dist.map (fun p => .coll [.str p.1, .num (p.2 : ℝ)]))] = .ok (.dist (.one (.nominal dist)))

/-- The SPEs whose source can be compiled: the distributions of the leaves are known to Python by their names and keywords, derived variables can be read, symbols are names, weights
are rational numbers, there are no atomic leaves. -/
inductive Spe.CanRender (D : List String) (H : PyHost) (c : Ctx) (L : Lib) (μ : Dist → Measure ℝ) : Spe → Prop
  | nominal {X dist} : isName X = true → (∀ p ∈ dist, plainKey p.1 = true) → Spe.CanRender D H c L μ (.nominal X dist)
  | real {k X d supp cond env dom} : (∀ x ∈ env.map Prod.fst, isName x = true) → d.name ∈ D → d.name ≠ "array" → H.call d.name (d.kwds.map (fun p => .coll [.str p.1, .num p.2])) = .ok (.dist (.one (.real k d dom))) →
      (Distr.real k d dom).WF L μ → (∀ p ∈ env.tail, ∃ r, p.2.ReadsAs D H c r) → Spe.CanRender D H c L μ (.real k X d supp cond env)
  | sum {cs ws} : (∀ s ∈ cs, Spe.CanRender D H c L μ s) → (∀ w ∈ ws, ∃ q : ℚ, w = (q : ℝ)) → Spe.CanRender D H c L μ (.sum cs ws)
  | prod {cs} : (∀ s ∈ cs, Spe.CanRender D H c L μ s) → Spe.CanRender D H c L μ (.prod cs)

end Sppl
