import Verif.Spe.Model

/-!
# Model of weighted mixtures: `/repo/src/spe.py` 111-140, 299-357, `/repo/src/distributions.py` 7-64
-/

namespace Sppl
open Classical

/-- `PartialSumSPE` (spe.py 315-326): a mixture whose weights do not yet sum to one. -/
structure PSum where
  children : List Spe
  weights : List ℝ

/-- What expressions made of `*` and `|` evaluate to. -/
inductive MixVal
  | psum (p : PSum)
  | spe (s : Spe)

/-- spe.py 317-326 `PartialSumSPE.__init__`. -/
noncomputable def mkPSum (cs : List Spe) (ws : List ℝ) : Res PSum :=
  if ws.sum < 1 then
    if areIdentical (Spe.symbolsL cs) then
      if cs = [] then .error .index else .ok ⟨cs, ws⟩
    else .error .value
  else .error .assertion

/-- `w * s`: spe.py 111-123 for an SPE, 336-337 for a `PartialSumSPE`. -/
noncomputable def mixMul (w : ℝ) : MixVal → Res MixVal
  | .spe s =>
    if 0 < w ∧ w < 1 then do
      let p ← mkPSum [s] [w]
      .ok (.psum p)
    else .error .value
  | .psum _ => .error .type

/-- `p | q`: spe.py 337-357; other operands give `TypeError`.  `allclose(cumsum, 1)` is equality here. -/
noncomputable def mixOr : MixVal → MixVal → Res MixVal
  | .psum p, .psum q =>
    let ws := p.weights ++ q.weights
    let cs := p.children ++ q.children
    if ws.sum = 1 then do
      let s ← mkSum cs ws
      .ok (.spe s)
    else if ws.sum < 1 then do
      let r ← mkPSum cs ws
      .ok (.psum r)
    else .error .value
  | _, _ => .error .type

/-- `s & t`: spe.py 127-140, 330-333. -/
noncomputable def mixAnd : MixVal → MixVal → Res MixVal
  | .spe s, .spe t => do
    let r ← mkProd [s, t]
    .ok (.spe r)
  | _, _ => .error .type

/-- `w1*s1 | w2*s2 | ...`, evaluated by Python from the left. -/
noncomputable def mixChain : List (ℝ × Spe) → Res MixVal
  | [] => .error .type
  | q :: qs => do
    let v ← mixMul q.1 (.spe q.2)
    qs.foldlM (fun acc r => do
      let x ← mixMul r.1 (.spe r.2)
      mixOr acc x) v

/-- `s1 & s2 & ...`, evaluated by Python from the left (spe.py 127-140). -/
noncomputable def andChain : List MixVal → Res MixVal
  | [] => .error .type
  | v :: vs => vs.foldlM mixAnd v

/-- The distributions of distributions.py: `NominalDistribution` (18-23), `RealDistribution` (31-43; with the domain that
`get_domain` returns and the frozen scipy distribution). -/
inductive Distr
  | nominal (dist : List (String × ℚ))
  | real (k : Kind) (d : Dist) (supp : Ivl EReal)

/-- `Distribution.__call__`: distributions.py 21-23, 39-41. -/
noncomputable def Distr.call (L : Lib) (sym : String) : Distr → Res Spe
  | .nominal dist => mkNominal sym dist
  | .real k d supp => mkReal L ⟨k, d, supp, false⟩ sym [(sym, .id sym)]

/-- `DistributionMix` (distributions.py 45-49). -/
structure DMix where
  distributions : List Distr
  weights : List ℝ

/-- distributions.py 8-16 `Distribution.__rmul__`. -/
noncomputable def dMul (w : ℝ) (d : Distr) : Res DMix :=
  if 0 < w ∧ w < 1 then .ok ⟨[d], [w]⟩ else .error .value

/-- distributions.py 57-64 `DistributionMix.__or__`. -/
noncomputable def dOr (p q : DMix) : Res DMix :=
  let ws := p.weights ++ q.weights
  if 0 < ws.sum ∧ ws.sum ≤ 1 then .ok ⟨p.distributions ++ q.distributions, ws⟩ else .error .assertion

/-- distributions.py 50-55 `DistributionMix.__call__`. -/
noncomputable def DMix.call (L : Lib) (sym : String) (m : DMix) : Res Spe := do
  let cs ← m.distributions.mapM (Distr.call L sym)
  mkSum cs m.weights

/-- `w1*d1 | w2*d2 | ...`, evaluated by Python from the left. -/
noncomputable def dChain : List (ℝ × Distr) → Res DMix
  | [] => .error .type
  | q :: qs => do
    let v ← dMul q.1 q.2
    qs.foldlM (fun acc r => do
      let x ← dMul r.1 r.2
      dOr acc x) v

/-- spe.py 299-313 `ExposedSumSPE.__init__`: `children` is a dictionary from the outcomes of the leaf `sym, dist`.  The order of
iteration of `spe_weights.support` is that of the outcomes here. -/
noncomputable def mkExposed (c : Ctx) (L : Lib) (n : ℕ) (children : String → Option Spe) (sym : String) (dist : List (String × ℚ)) : Res Spe := do
  let ws ← (dist.map Prod.fst).mapM (fun x => leafProb c L n (.nominal sym dist) (.nom (.id sym) (some ⟨{x}, none⟩)))
  let cs ← (dist.map Prod.fst).mapM (fun x => do
    let choice ← mkNominal sym [(x, 1)]
    match children x with
    | some s => mkProd [choice, s]
    | none => .error .key)
  mkSum cs ws

end Sppl
