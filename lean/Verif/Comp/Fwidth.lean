import Verif.Comp.Render
import Mathlib.Algebra.Order.Round
import Mathlib.Algebra.Order.Archimedean.Real.Basic

/-!
# Model of `/repo/src/compilers/spe_to_sppl.py` with `fwidth`, the number of decimals

The functions of `Verif/Comp/Render.lean` that write numbers, with the parameter that is left out there.
-/

namespace Sppl
open Classical

/-- The integer next to `x`, of two the even one. -/
noncomputable def halfEven (x : ℝ) : ℤ := if Int.fract x = 1 / 2 then (if Even ⌊x⌋ then ⌊x⌋ else ⌊x⌋ + 1) else round x

/-- The number that Python reads from `'%1.*f' % (fw, x)`. -/
noncomputable def fixedText (fw : ℕ) (x : ℝ) : ℝ := (halfEven (x * 10 ^ fw) : ℝ) / 10 ^ fw

/-- spe_to_sppl.py 15 `float_to_str`: the number that is read from the text.  (`None` and 0 are false.) -/
noncomputable def floatToStr (fw : Option ℕ) (x : ℝ) : ℝ :=
  match fw with
  | none => x
  | some 0 => x
  | some (n + 1) => fixedText (n + 1) x

/-- spe_to_sppl.py 23-43 `render_sppl_choice`. -/
noncomputable def renderChoiceW (fw : Option ℕ) (X : String) (l : List (String × ℝ)) : Res Stmt := renderChoice X (l.map (fun p => (p.1, floatToStr fw p.2)))

/-- spe_to_sppl.py 56-60: the keyword arguments of the distribution. -/
noncomputable def keywordsW (fw : Option ℕ) (d : Dist) : List Obj := d.kwds.map (fun p => .coll [.str p.1, .num (floatToStr fw p.2)])

mutual
/-- spe_to_sppl.py 44-98 `render_sppl_helper`: supports and derived variables are written in full. -/
noncomputable def Spe.renderW (fw : Option ℕ) : Spe → List (List ℝ) → Res (List Stmt × List (List ℝ))
  | .nominal X dist, bs => do
    let s ← renderChoiceW fw X (dist.map (fun p => (p.1, (p.2 : ℝ))))
    .ok ([s], bs)
  | .real _ X d supp cond env, bs => do
    let r ← renderEnv env.tail
    if isName X = true then .ok (.assign (.name X) (.call d.name ((keywordsW fw d).map PE.lit)) :: ((if cond = true then [.condition (supportText X supp)] else []) ++ r), bs)
    else .error .value
  | .prod cs, bs => do
    let r ← Spe.renderWL fw cs bs
    .ok (r.1.flatten, r.2)
  | .sum [] _, bs => .ok ([], bs)
  | .sum [s] _, bs => s.renderW fw bs
  | .sum (s :: t :: cs) ws, bs => do
    let r ← s.renderW fw (bs ++ [ws])
    let q ← Spe.renderWL fw (t :: cs) r.2
    let e ← renderElifs bs.length 0 (r.1 :: q.1)
    .ok (e, q.2)
  | .atomic _ _ _, _ => .error .assertion
/-- The children in turn. -/
noncomputable def Spe.renderWL (fw : Option ℕ) : List Spe → List (List ℝ) → Res (List (List Stmt) × List (List ℝ))
  | [], bs => .ok ([], bs)
  | s :: ss, bs => do
    let r ← s.renderW fw bs
    let q ← Spe.renderWL fw ss r.2
    .ok (r.1 :: q.1, q.2)
end

/-- spe_to_sppl.py 111-113: the branch variables, from the `n`th. -/
noncomputable def renderBranchesW (fw : Option ℕ) : ℕ → List (List ℝ) → Res (List Stmt)
  | _, [] => .ok []
  | n, ws :: wss => do
    let s ← renderChoiceW fw (branchVar n) (branchDist ws)
    let r ← renderBranchesW fw (n + 1) wss
    .ok (s :: r)

/-- spe_to_sppl.py 101-116 `render_sppl(spe, fwidth=fw)`, without the import. -/
noncomputable def renderSpplW (fw : Option ℕ) (s : Spe) : Res (List Stmt) := do
  let r ← s.renderW fw []
  let b ← renderBranchesW fw 0 r.2
  .ok (b ++ r.1)

/-! ## Specification -/

/-- The number can be written with `n` decimals. -/
def HasDecimals (n : ℕ) (x : ℝ) : Prop := ∃ z : ℤ, x * 10 ^ n = z

/-- The numbers that are written: probabilities of strings, keyword arguments, weights of mixtures. -/
inductive Spe.Numbers (P : ℝ → Prop) : Spe → Prop
  | nominal {X dist} : (∀ p ∈ dist, P ((p.2 : ℚ) : ℝ)) → Spe.Numbers P (.nominal X dist)
  | real {k X d supp cond env} : (∀ p ∈ d.kwds, P p.2) → Spe.Numbers P (.real k X d supp cond env)
  | atomic {X v env} : Spe.Numbers P (.atomic X v env)
  | sum {cs ws} : (∀ s ∈ cs, Spe.Numbers P s) → (∀ w ∈ ws, P w) → Spe.Numbers P (.sum cs ws)
  | prod {cs} : (∀ s ∈ cs, Spe.Numbers P s) → Spe.Numbers P (.prod cs)

end Sppl
