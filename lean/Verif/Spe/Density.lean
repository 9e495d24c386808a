import Verif.Spe.Model

/-!
# Model of `logpdf` and `constrain` in `/repo/src/spe.py`

As in `Spe/Model.lean`, densities stand for their logarithms (`-inf` is 0), and there is no memo table.
-/

namespace Sppl
open Classical

/-- The dictionary passed to `logpdf` and `constrain`: numbers or strings for variables. -/
abbrev Point := List (String × Val ℝ)

/-- spe.py 861-869 `ContinuousLeaf.logpdf__` on a number. -/
noncomputable def RLeaf.pdf (L : Lib) (l : RLeaf) (x : ℝ) : Res ℝ :=
  if l.cond = false then .ok (L.pdf l.d x)
  else do
    let b ← (SSet.pc (.ivl l.supp)).contains (.num (x : EReal))
    if b = true then do
      let z ← l.Z L
      .ok (L.pdf l.d x / z)
    else .ok 0

/-- `logpdf__`: spe.py 861-869 (continuous), 906-914 (discrete), 983-987 (nominal: `math.log(0)` raises `ValueError`), 690-691 (atomic
leaves do not override it). -/
noncomputable def leafPdf (L : Lib) : Spe → Val ℝ → Res ℝ
  | .real _ _ _ _ _ _, .str _ => .ok 0
  | .real .cont _ d supp cond _, .num x => RLeaf.pdf L ⟨.cont, d, supp, cond⟩ x
  | .real .disc _ d supp cond _, .num x => RLeaf.pmf L ⟨.disc, d, supp, cond⟩ (x : EReal)
  | .nominal _ _, .num _ => .ok 0
  | .nominal _ dist, .str x =>
    match dist.lookup x with
    | none => .ok 0
    | some w => if w = 0 then .error .value else .ok (w : ℝ)
  | _, _ => .error .notImplemented

/-- `1 - self.atomic` (spe.py 677, 843, 886, 933, 970). -/
def leafDim : Spe → ℕ
  | .real .cont _ _ _ _ _ => 1
  | _ => 0

/-- spe.py 672-675, 680-683: the value of the only assigned variable, which must be the variable of the leaf. -/
def leafValue (s : Spe) (a : Point) : Res (Val ℝ) :=
  match s.leafEnv, a with
  | some (sym, _), [(k, v)] => if k = sym then .ok v else .error .assertion
  | _, _ => .error .assertion

/-- spe.py 671-677 `LeafSPE.logpdf_mem`. -/
noncomputable def leafPdfMem (L : Lib) (s : Spe) (a : Point) : Res (ℕ × ℝ) := do
  let v ← leafValue s a
  let w ← leafPdf L s v
  .ok (leafDim s, w)

/-- spe.py 272-277: the mixture of densities `ds` of the children. -/
noncomputable def mixPdf (ws : List ℝ) (ds : List (ℕ × ℝ)) : ℕ × ℝ :=
  match ((ds.filter (fun q => q.2 ≠ 0)).map Prod.fst).min? with
  | none => (0, 0)
  | some m => (m, (((ds.zip ws).filter (fun q => q.1.1 = m)).map (fun q => q.2 * q.1.2)).sum)

/-- spe.py 565-570: the children that have assigned variables, in order of first occurrence, with their assignments. -/
def splitPoint (syms : List (Finset String)) (a : Point) : Res (List (ℕ × Point)) := do
  let ks ← a.mapM (fun p => lookupChild syms p.1)
  .ok (ks.reverse.dedup.reverse.map (fun k => (k, ((a.zip ks).filter (fun q => q.2 = k)).map Prod.fst)))

/-- spe.py 571-572: the sum of the dimensions and the product of the densities; `reduce` of nothing raises `TypeError`. -/
noncomputable def prodPdf : List (ℕ × ℝ) → Res (ℕ × ℝ)
  | [] => .error .type
  | d :: ds => .ok (ds.foldl (fun x y => (x.1 + y.1, x.2 * y.2)) d)

mutual
/-- `logpdf_mem`: spe.py 671-677 (leaves), 269-277 (sums), 563-572 (products). -/
noncomputable def Spe.pdfMem (L : Lib) : Spe → Point → Res (ℕ × ℝ)
  | .real k sym d supp cond env, a => leafPdfMem L (.real k sym d supp cond env) a
  | .atomic sym v env, a => leafPdfMem L (.atomic sym v env) a
  | .nominal sym dist, a => leafPdfMem L (.nominal sym dist) a
  | .sum cs ws, a => do
    let ds ← callAll (Spe.pdfMemL L cs) a
    .ok (mixPdf ws ds)
  | .prod cs, a => do
    let parts ← splitPoint (Spe.symbolsL cs) a
    let ds ← parts.mapM (fun q =>
      match (Spe.pdfMemL L cs)[q.1]? with
      | some f => f q.2
      | none => .error .index)
    prodPdf ds
/-- The methods `logpdf_mem` of the children. -/
noncomputable def Spe.pdfMemL (L : Lib) : List Spe → List (Point → Res (ℕ × ℝ))
  | [] => []
  | s :: ss => Spe.pdfMem L s :: Spe.pdfMemL L ss
end

/-- `logpdf`: spe.py 183-186, 645-648. -/
noncomputable def Spe.pdf (L : Lib) (s : Spe) (a : Point) : Res ℝ := do
  let q ← s.pdfMem L a
  .ok q.2

/-- `constrain__`: spe.py 819-821 (real: the derived variables are not passed on), 1023-1025 (nominal), 692-693 (atomic leaves do not
override it). -/
noncomputable def leafConstrain (L : Lib) (s : Spe) (v : Val ℝ) : Res Spe := do
  let w ← leafPdf L s v
  if w = 0 then .error .assertion
  else
    match s, v with
    | .real _ sym _ _ _ _, .num x => .ok (.atomic sym x [(sym, .id sym)])
    | .nominal sym _, .str x => mkNominal sym [(x, 1)]
    | _, _ => .error .notImplemented

/-- spe.py 678-683 `LeafSPE.constrain_mem`. -/
noncomputable def leafConstrainMem (L : Lib) (s : Spe) (a : Point) : Res Spe := do
  let v ← leafValue s a
  leafConstrain L s v

/-- spe.py 282-289: the mixture of the children of least dimension with positive density. -/
noncomputable def constrainSum (ws : List ℝ) (ds : List (ℕ × ℝ)) (fs : List (Point → Res Spe)) (a : Point) : Res Spe :=
  match ((ds.filter (fun q => q.2 ≠ 0)).map Prod.fst).min? with
  | none => .error .assertion
  | some m => do
    let good := ((ds.zip ws).zip fs).filter (fun r => r.1.1.2 ≠ 0 ∧ r.1.1.1 = m)
    let children ← good.mapM (fun r => r.2 a)
    match children with
    | [s] => .ok s
    | cs => mkSum cs (pnorm (good.map (fun r => r.1.1.2 * r.1.2)))

mutual
/-- `constrain_mem`: spe.py 678-683 (leaves), 279-289 (sums), 574-585 (products: variables of no child are ignored).  The dictionary at
581 is in the iteration order of a set; here it keeps the order of the assignment. -/
noncomputable def Spe.constrainMem (L : Lib) : Spe → Point → Res Spe
  | .real k sym d supp cond env, a => leafConstrainMem L (.real k sym d supp cond env) a
  | .atomic sym v env, a => leafConstrainMem L (.atomic sym v env) a
  | .nominal sym dist, a => leafConstrainMem L (.nominal sym dist) a
  | .sum cs ws, a => do
    let ds ← callAll (Spe.pdfMemL L cs) a
    constrainSum ws ds (Spe.constrainMemL L cs) a
  | .prod cs, a => do
    let children ← (cs.zip (Spe.constrainMemL L cs)).mapM (fun p =>
      let sub := a.filter (fun q => decide (q.1 ∈ p.1.symbols))
      if sub = [] then .ok p.1 else p.2 sub)
    mkProd children
/-- The methods `constrain_mem` of the children. -/
noncomputable def Spe.constrainMemL (L : Lib) : List Spe → List (Point → Res Spe)
  | [] => []
  | s :: ss => Spe.constrainMem L s :: Spe.constrainMemL L ss
end

/-- `constrain`: spe.py 187-190, 649-652. -/
noncomputable def Spe.constrain (L : Lib) (s : Spe) (a : Point) : Res Spe := s.constrainMem L a

end Sppl
