import Verif.Spe.Density
import Verif.Misc.LogSpace

/-!
# Model of `/repo/src/spe.py` with logarithms, as the code computes them

`Spe/Model.lean` and `Spe/Density.lean` work with probabilities.  Here the same methods are modelled with the floating-point operations
that the code does: sums of logarithms, `logsumexp`, `logdiffexp`, `lognorm`, tests for `-inf`, and `nan`.  Arithmetic is exact (no
rounding).  The attribute `weights` of a `SumSPE` holds logarithms; an SPE is represented here by the same datatype, which holds
their exponentials: `wlog` reads an attribute, `wexp` stores one.  `cl` is `numpy.allclose`.
-/

namespace Sppl
open Classical
open scoped ENNReal

/-- A float: `none` is `nan`. -/
abbrev Flt := Option EReal

/-- `numpy.allclose(b, a)` (math_util.py 41-42), a parameter; `npClose` is the one with numpy's tolerances. -/
abbrev CloseTest := EReal → EReal → Bool

/-- The logarithm of a non-negative number; `-inf` for zero. -/
noncomputable def wlog (w : ℝ) : EReal := ENNReal.log (ENNReal.ofReal w)

/-- The number with the given logarithm. -/
noncomputable def wexp (x : EReal) : ℝ := (EReal.exp x).toReal

/-- `a + b` of floats: `nan` for infinities of opposite sign. -/
noncomputable def fadd : Flt → Flt → Flt
  | some a, some b => if (a = ⊥ ∧ b = ⊤) ∨ (a = ⊤ ∧ b = ⊥) then none else some (a + b)
  | _, _ => none

/-- `a - b` of floats. -/
noncomputable def fminus : Flt → Flt → Flt
  | some a, some b => fsub a b
  | _, _ => none

/-- `scipy.special.logsumexp`; `nan` if one of the numbers is.  (It raises `ValueError` for an empty list; the code never has one.) -/
noncomputable def flse (l : List Flt) : Flt := (l.mapM id).map logsumexp

/-- math_util.py 18-23 `logdiffexp`; comparisons with `nan` are false. -/
noncomputable def fdiff (cl : CloseTest) : Flt → Flt → Res Flt
  | some a, some b => if b < a then .ok ((log1mexp (a - b)).map (a + ·)) else if cl b a then .ok (some ⊥) else .error .value
  | _, _ => .error .value

/-- math_util.py 25-27 `lognorm`. -/
noncomputable def fnorm (l : List Flt) : List Flt := l.map (fun a => fminus a (flse l))

/-- Python's `sum` of floats. -/
noncomputable def ftotal (l : List Flt) : Flt := l.foldl fadd (some 0)

/-- math_util.py 47-48 `isinf_neg`. -/
noncomputable def fnull (x : Flt) : Bool := decide (x = some ⊥)

/-- `math.log` of a fraction: `ValueError` unless it is positive. -/
noncomputable def mlog (q : ℚ) : Res Flt := if q ≤ 0 then .error .value else .ok (some (wlog q))

/-! ## Constructors -/

/-- spe.py 213-217: the weights contributed by an argument of `SumSPE` of weight `w`. -/
noncomputable def Spe.sumLogWeights (s : Spe) (w : Flt) : List Flt :=
  match s with
  | .sum _ ws => ws.map (fun w' => fadd w (some (wlog w')))
  | _ => [w]

/-- spe.py 219: `allclose(float(logsumexp(weights)), 0)`. -/
noncomputable def closeTo (cl : CloseTest) (x : Flt) (y : EReal) : Bool :=
  match x with
  | some x => cl x y
  | none => false

/-- spe.py 206-226 `SumSPE.__init__`.  (After the assertion no weight is `nan`.) -/
noncomputable def mkSumLog (cl : CloseTest) (cs : List Spe) (ws : List Flt) : Res Spe :=
  if cs.length ≠ ws.length then .error .assertion
  else
    let children := cs.flatMap Spe.sumChildren
    let weights := (cs.zip ws).flatMap (fun p => p.1.sumLogWeights p.2)
    if closeTo cl (flse ws) 0 then
      if children = [] then .error .index
      else if areIdentical (Spe.symbolsL children) then .ok (.sum children (weights.map (fun w => wexp (w.getD ⊥))))
      else .error .value
    else .error .assertion

/-! ## Leaves over the reals -/

/-- spe.py 853, 898: `logZ` of a conditioned leaf. -/
noncomputable def RLeaf.logZ (cl : CloseTest) (L : Lib) (l : RLeaf) : Res Flt := fdiff cl (some (wlog (L.cdf l.d l.xu))) (some (wlog (l.Fl L)))

/-- spe.py 741-749 `logcdf`. -/
noncomputable def RLeaf.logcdf (cl : CloseTest) (L : Lib) (l : RLeaf) (x : EReal) : Res Flt :=
  if l.cond = false then .ok (some (wlog (L.cdf l.d x)))
  else if l.xu < x then .ok (some 0)
  else if x < l.xl then .ok (some ⊥)
  else do
    let p ← fdiff cl (some (wlog (L.cdf l.d x))) (some (wlog (l.Fl L)))
    let z ← l.logZ cl L
    .ok (fminus p z)

/-- spe.py 906-914 `DiscreteLeaf.logpdf__` on a number. -/
noncomputable def RLeaf.logpmf (cl : CloseTest) (L : Lib) (l : RLeaf) (x : EReal) : Res Flt :=
  if l.cond = false then .ok (some (wlog (L.pmf l.d x)))
  else if x < l.xl ∨ l.xu < x then .ok (some ⊥)
  else do
    let z ← l.logZ cl L
    .ok (fminus (some (wlog (L.pmf l.d x))) z)

/-- spe.py 918: `logps[0] if len(logps) == 1 else logsumexp(logps)`. -/
noncomputable def oneOrSum : List Flt → Flt
  | [x] => x
  | l => flse l

/-- spe.py 871-872, 916-918 `logprob_finite__`. -/
noncomputable def RLeaf.logFinite (cl : CloseTest) (L : Lib) (l : RLeaf) (s : Finset EReal) : Res Flt :=
  match l.k with
  | .cont => .ok (some ⊥)
  | .disc => do
    let ps ← (s.sort (· ≤ ·)).mapM (l.logpmf cl L)
    .ok (oneOrSum ps)

/-- spe.py 874-879 (continuous), 919-926 (discrete) `logprob_interval__`. -/
noncomputable def RLeaf.logIvl (cl : CloseTest) (L : Lib) (l : RLeaf) (i : Ivl EReal) : Res Flt :=
  match l.k with
  | .cont => do
    let fl ← l.logcdf cl L i.a
    let fu ← l.logcdf cl L i.b
    fdiff cl fu fl
  | .disc => do
    let il ← leftIncl i
    let ir ← rightExcl i
    let fl ← l.logcdf cl L (floatToInt i.a - (if il then 1 else 0))
    let fu ← l.logcdf cl L (floatToInt i.b - (if ir then 1 else 0))
    fdiff cl fu fl

/-- spe.py 756-766 `logprob_values__` on a set that is not a union. -/
noncomputable def RLeaf.logPiece (cl : CloseTest) (L : Lib) (l : RLeaf) : Piece EReal → Res Flt
  | .fin s => l.logFinite cl L s
  | .ivl i => l.logIvl cl L i
  | .nom _ => .error .assertion

/-- spe.py 756-766 `logprob_values__`. -/
noncomputable def RLeaf.logValues (cl : CloseTest) (L : Lib) (l : RLeaf) : SSet EReal → Res Flt
  | .empty => .ok (some ⊥)
  | .pc p => l.logPiece cl L p
  | .un u => do
    let ps ← u.args.mapM (l.logPiece cl L)
    .ok (flse ps)

/-- spe.py 701-716, 844-859, 887-904: the constructors of real leaves. -/
noncomputable def mkRealLog (cl : CloseTest) (L : Lib) (l : RLeaf) (sym : String) (env : Env) : Res Spe := do
  match l.k with
  | .cont => .ok ()
  | .disc => do
    let a ← intOrNegInf l.supp.a
    assertB a
    let b ← intOrPosInf l.supp.b
    assertB b
  if l.cond then do
    let _ ← l.logZ cl L
    .ok (.real l.k sym l.d l.supp l.cond env)
  else .ok (.real l.k sym l.d l.supp l.cond env)

/-! ## Leaves -/

/-- spe.py 751-754 (real), 949-951 (atomic), 997-1005 (nominal): `logprob__` of a solved event. -/
noncomputable def leafLogSet (cl : CloseTest) (c : Ctx) (L : Lib) : Spe → SSet EReal → Res Flt
  | .real k _ d supp cond _, S => do
    let V ← SSet.and c.σ (.pc (.ivl supp)) S
    RLeaf.logValues cl L ⟨k, d, supp, cond⟩ V
  | .atomic _ v _, S => do
    let b ← S.contains (.num (v : EReal))
    .ok (some (if b then 0 else ⊥))
  | .nominal _ dist, S => do
    let V ← nominalValues c dist S
    match V with
    | .empty => .ok (some ⊥)
    | .pc (.nom m) =>
      if m = ⟨∅, some true⟩ then .ok (some 0)
      else do
        let p ← nominalMass dist m.vals
        if p ≠ 0 then mlog p else .ok (some ⊥)
    | _ => .error .type
  | _, _ => .error .notImplemented

/-- spe.py 625-634 `LeafSPE.logprob`. -/
noncomputable def leafLog (cl : CloseTest) (c : Ctx) (L : Lib) (n : ℕ) (s : Spe) (e : Ev) : Res Flt :=
  match s.leafEnv with
  | none => .error .notImplemented
  | some (sym, env) => do
    let r ← leafSubst c n sym env e
    let S ← r.solve c n
    leafLogSet cl c L s S

/-- spe.py 798-815: the leaf conditioned on the intervals `is`. -/
noncomputable def condIvlsLog (cl : CloseTest) (L : Lib) (l : RLeaf) (sym : String) (env : Env) (is : List (Ivl EReal)) : Res Spe := do
  let ps ← is.mapM (l.logIvl cl L)
  let good := (is.zip ps).filter (fun q => !fnull q.2)
  if is = [] then .error .index
  else if good = [] then .error .value
  else do
    let children ← good.mapM (fun q => mkRealLog cl L ⟨l.k, l.d, q.1, true⟩ sym env)
    match children with
    | [s] => .ok s
    | cs => mkSumLog cl cs (fnorm (good.map Prod.snd))

/-- spe.py 785-815 `RealLeaf.condition__` of a solved event. -/
noncomputable def condRealLog (cl : CloseTest) (c : Ctx) (L : Lib) (l : RLeaf) (sym : String) (env : Env) (S : SSet EReal) : Res Spe := do
  let V ← SSet.and c.σ (.pc (.ivl l.supp)) S
  let w ← l.logValues cl L V
  if fnull w then .error .value
  else if V = .pc (.ivl l.supp) then .ok (.real l.k sym l.d l.supp l.cond env)
  else do
    let is ← flattenValues l.k V
    condIvlsLog cl L l sym env is

/-- `condition__`: spe.py 785-815 (real); atomic and nominal leaves (952-955, 1007-1021) use no logarithms. -/
noncomputable def leafCondSetLog (cl : CloseTest) (c : Ctx) (L : Lib) : Spe → SSet EReal → Res Spe
  | .real k sym d supp cond env, S => condRealLog cl c L ⟨k, d, supp, cond⟩ sym env S
  | s, S => leafCondSet c L s S

/-- spe.py 635-644 `LeafSPE.condition`. -/
noncomputable def leafCondLog (cl : CloseTest) (c : Ctx) (L : Lib) (n : ℕ) (s : Spe) (e : Ev) : Res Spe :=
  match s.leafEnv with
  | none => .error .notImplemented
  | some (sym, env) => do
    let r ← leafSubst c n sym env e
    let S ← r.solve c n
    leafCondSetLog cl c L s S

/-! ## Products: inclusion-exclusion -/

/-- spe.py 537-549 `logprob_conjunction_key`; `fs` are the methods `logprob_mem` of the children. -/
noncomputable def conjKeyLog (c : Ctx) (syms : List (Finset String)) (fs : List (Factor → Res Flt)) (ms : List (Clause String))
    (key : ℕ) : Res Flt := do
  let cl ← conjClause c syms key ms
  if cl = [] then .ok (some ⊥)
  else
    match fs[key]? with
    | some f => f [cl]
    | none => .error .index

/-- spe.py 529-535 `logprob_conjunction` of the clauses `ms`. -/
noncomputable def conjLog (c : Ctx) (syms : List (Finset String)) (fs : List (Factor → Res Flt)) (ms : List (Clause String)) :
    Res Flt := do
  let ks ← conjKeys syms ms
  let ps ← ks.mapM (conjKeyLog c syms fs ms)
  .ok (ftotal ps)

/-- spe.py 486-502, the `while` loop: `f J` is the logarithm of the probability of the conjunction of the clauses `J`; the
result is `(logps_pos, logps_neg)`. -/
noncomputable def ieLogLoop (m : ℕ) (f : List ℕ → Res Flt) (stack : List (List ℕ × ℕ)) (avoid : List (List ℕ))
    (pos neg : List Flt) : Res (List Flt × List Flt) :=
  match stack with
  | [] => .ok (pos, neg)
  | (J, i) :: rest =>
    if isBad avoid J then ieLogLoop m f rest avoid pos neg
    else
      match f J with
      | .error e => .error e
      | .ok p =>
        ieLogLoop m f (rest ++ ieNext m J i) (if fnull p then avoid ++ [J] else avoid)
          (if J.length % 2 = 1 then pos ++ [p] else pos) (if J.length % 2 = 1 then neg else neg ++ [p])
termination_by ieMeasure m stack
decreasing_by
  · simp [ieMeasure]
  · have := ieMeasure_next m J i
    simp only [ieMeasure, List.map_append, List.sum_append, List.map_cons, List.sum_cons] at this ⊢
    omega

/-- spe.py 479-509 `ProductSPE.logprob_mem` with `m` clauses. -/
noncomputable def inclExclLog (cl : CloseTest) (m : ℕ) (f : List ℕ → Res Flt) : Res Flt := do
  let pn ← ieLogLoop m f ((List.range m).map (fun i => ([i], i))) [] [] []
  if fnull (flse pn.1) ∨ pn.2 = [] then .ok (flse pn.1)
  else fdiff cl (flse pn.1) (flse pn.2)

/-- spe.py 255: `logsumexp([p + w for (p, w) in zip(logps, self.weights)])`. -/
noncomputable def mixLog (ws : List ℝ) (ps : List Flt) : Flt := flse (List.zipWith (fun w p => fadd p (some (wlog w))) ws ps)

mutual
/-- `logprob_mem`: spe.py 653-661 (leaves), 253-256 (sums), 479-509 (products). -/
noncomputable def Spe.logMem (cl : CloseTest) (c : Ctx) (L : Lib) (n : ℕ) : Spe → Factor → Res Flt
  | .real k sym d supp cond env, F => do
    let e ← factorEvent c F
    leafLog cl c L n (.real k sym d supp cond env) e
  | .atomic sym v env, F => do
    let e ← factorEvent c F
    leafLog cl c L n (.atomic sym v env) e
  | .nominal sym dist, F => do
    let e ← factorEvent c F
    leafLog cl c L n (.nominal sym dist) e
  | .sum cs ws, F => do
    let ps ← callAll (Spe.logMemL cl c L n cs) F
    .ok (mixLog ws ps)
  | .prod cs, F =>
    inclExclLog cl F.length (fun J => conjLog c (Spe.symbolsL cs) (Spe.logMemL cl c L n cs) (pickClauses F J))
/-- The methods `logprob_mem` of the children. -/
noncomputable def Spe.logMemL (cl : CloseTest) (c : Ctx) (L : Lib) (n : ℕ) : List Spe → List (Factor → Res Flt)
  | [] => []
  | s :: ss => Spe.logMem cl c L n s :: Spe.logMemL cl c L n ss
end

/-! ## Simplification of sums -/

/-- spe.py 391-416 `spe_simplify_sum_product_helper`. -/
noncomputable def simplifyStepLog (cl : CloseTest) (state : List Spe × Flt) (bs : List Spe) (wb : Flt) : Res (List Spe × Flt) := do
  let ws := fnorm [state.2, wb]
  let ov := overlapPairs state.1 bs
  if ov.length = 0 then do
    let pa ← listToProd state.1
    let pb ← listToProd bs
    let s ← mkSumLog cl [pa, pb] ws
    .ok ([s], flse [state.2, wb])
  else if ov.length = state.1.length then .ok (state.1, flse [state.2, wb])
  else do
    let pa ← listToProd (keepIdx state.1 (ov.map Prod.fst) false)
    let pb ← listToProd (keepIdx bs (ov.map Prod.snd) false)
    let s ← mkSumLog cl [pa, pb] ws
    .ok (s :: keepIdx state.1 (ov.map Prod.fst) true, flse [state.2, wb])

/-- spe.py 382-389: the reduction over the children of the products; `logsumexp` of one number. -/
noncomputable def simplifyProductsLog (cl : CloseTest) (css : List (List Spe)) (ws : List ℝ) : Res Spe :=
  match css, ws with
  | cs :: css, w :: ws => do
    let r ← (css.zip ws).foldlM (fun st q => simplifyStepLog cl st q.1 (some (wlog q.2))) (cs, some (wlog w))
    if closeTo cl (flse [r.2]) 0 then listToProd r.1 else .error .assertion
  | _, _ => .error .index

/-- spe.py 377-389 `spe_simplify_sum_product`. -/
noncomputable def simplifySumProductLog (cl : CloseTest) (cs : List Spe) (ws : List ℝ) : Res Spe :=
  match cs.mapM Spe.prod? with
  | none => .ok (.sum cs ws)
  | some css => simplifyProductsLog cl css ws

/-- spe.py 366-375 `spe_simplify_sum_leaf`. -/
noncomputable def simplifySumLeafLog (cl : CloseTest) (hash : Spe → ℤ) (cs : List Spe) (ws : List ℝ) : Res Spe :=
  if cs.all Spe.isLeaf then
    let P := partitionBlocks (cs.map hash)
    if ¬ cs.all Spe.hashable then .error .type
    else if P.length = cs.length then .ok (.sum cs ws)
    else if P.length = 1 then .ok (cs.headD default)
    else mkSumLog cl (P.filterMap (fun b => b.head?.bind (fun i => cs[i]?)))
      (P.map (fun b => flse ((b.filterMap (fun i => ws[i]?)).map (fun w => some (wlog w)))))
  else .error .assertion

/-- spe.py 359-364 `spe_simplify_sum`. -/
noncomputable def simplifySumLog (cl : CloseTest) (hash : Spe → ℤ) : Spe → Res Spe
  | .sum [] _ => .error .index
  | .sum (s :: cs) ws =>
    if s.isLeaf then simplifySumLeafLog cl hash (s :: cs) ws
    else
      match s with
      | .prod _ => simplifySumProductLog cl (s :: cs) ws
      | _ => .error .assertion
  | _ => .error .attribute

/-! ## Conditioning -/

/-- spe.py 519-527: the mixture of the conditioned products. -/
noncomputable def condMixLog (cl : CloseTest) (hash : Spe → ℤ) (ps : List Flt) (products : List Spe) : Res Spe :=
  match products with
  | [s] => .ok s
  | ss => do
    let s ← mkSumLog cl ss (fnorm ps)
    simplifySumLog cl hash s

/-- spe.py 514: `allclose(logsumexp(logps), q)`. -/
noncomputable def closeFlt (cl : CloseTest) (x y : Flt) : Bool :=
  match y with
  | some y => closeTo cl x y
  | none => false

/-- spe.py 512-527 `ProductSPE.condition_mem`; `p` is `self.logprob_mem(event_factor)`. -/
noncomputable def condProdLog (cl : CloseTest) (c : Ctx) (hash : Spe → ℤ) (cs : List Spe) (pf : List (Factor → Res Flt))
    (fs : List (Factor → Res Spe)) (p : Res Flt) (F : Factor) : Res Spe := do
  let ps ← F.mapM (fun m => conjLog c (Spe.symbolsL cs) pf [m])
  let q ← p
  if closeFlt cl (flse ps) q then
    let good := (F.zip ps).filter (fun r => !fnull r.2)
    if good = [] then .error .value
    else do
      let childrens ← good.mapM (fun r => condClause cs fs r.1)
      let products ← childrens.mapM mkProd
      condMixLog cl hash (good.map Prod.snd) products
  else .error .assertion

/-- spe.py 259-267 `SumSPE.condition_mem`: `ps` are the logarithms of the probabilities of the children. -/
noncomputable def condSumLog (cl : CloseTest) (ws : List ℝ) (ps : List Flt) (fs : List (Factor → Res Spe)) (F : Factor) : Res Spe :=
  let good := ((ws.zip ps).zip fs).filter (fun r => !fnull r.1.2)
  if good = [] then .error .value
  else do
    let children ← good.mapM (fun r => r.2 F)
    match children with
    | [s] => .ok s
    | cs => mkSumLog cl cs (fnorm (good.map (fun r => fadd r.1.2 (some (wlog r.1.1)))))

mutual
/-- `condition_mem`: spe.py 662-670 (leaves), 259-267 (sums), 512-527 (products). -/
noncomputable def Spe.condMemLog (cl : CloseTest) (c : Ctx) (L : Lib) (hash : Spe → ℤ) (n : ℕ) : Spe → Factor → Res Spe
  | .real k sym d supp cond env, F => do
    let e ← factorEvent c F
    leafCondLog cl c L n (.real k sym d supp cond env) e
  | .atomic sym v env, F => do
    let e ← factorEvent c F
    leafCondLog cl c L n (.atomic sym v env) e
  | .nominal sym dist, F => do
    let e ← factorEvent c F
    leafCondLog cl c L n (.nominal sym dist) e
  | .sum cs ws, F => do
    let ps ← callAll (Spe.logMemL cl c L n cs) F
    condSumLog cl ws ps (Spe.condMemLogL cl c L hash n cs) F
  | .prod cs, F =>
    condProdLog cl c hash cs (Spe.logMemL cl c L n cs) (Spe.condMemLogL cl c L hash n cs) (Spe.logMem cl c L n (.prod cs) F) F
/-- The methods `condition_mem` of the children. -/
noncomputable def Spe.condMemLogL (cl : CloseTest) (c : Ctx) (L : Lib) (hash : Spe → ℤ) (n : ℕ) : List Spe → List (Factor → Res Spe)
  | [] => []
  | s :: ss => Spe.condMemLog cl c L hash n s :: Spe.condMemLogL cl c L hash n ss
end

/-! ## Public methods -/

/-- `logprob`: spe.py 159-166 (sums and products), 625-634 (leaves). -/
noncomputable def Spe.logprob (cl : CloseTest) (c : Ctx) (L : Lib) (n : ℕ) (s : Spe) (e : Ev) : Res Flt :=
  if s.isLeaf then leafLog cl c L n s e
  else do
    let o ← dnfNormalize c n e
    match o with
    | none => .ok (some ⊥)
    | some d => do
      let F ← dnfFactor1 c d
      s.logMem cl c L n F

/-- `math.exp` of a float; `nan` and infinity are kept as `none`. -/
noncomputable def mexp : Flt → Option ℝ
  | some x => if x = ⊤ then none else some (wexp x)
  | none => none

/-- spe.py 104-106 `prob`. -/
noncomputable def Spe.probLog (cl : CloseTest) (c : Ctx) (L : Lib) (n : ℕ) (s : Spe) (e : Ev) : Res (Option ℝ) := do
  let lp ← s.logprob cl c L n e
  .ok (mexp lp)

/-- spe.py 173-179: drop the clauses of probability zero. -/
noncomputable def dropNullLog (cl : CloseTest) (c : Ctx) (L : Lib) (n : ℕ) (s : Spe) : Ev → Res Ev
  | .or es => do
    let Fs ← es.mapM (dnfFactor1 c)
    let ps ← Fs.mapM (s.logMem cl c L n)
    let good := (es.zip ps).filter (fun r => !fnull r.2)
    if good = [] then .error .value else .ok (.or (good.map Prod.fst))
  | e => .ok e

/-- `condition`: spe.py 167-182 (sums and products), 635-644 (leaves). -/
noncomputable def Spe.conditionLog (cl : CloseTest) (c : Ctx) (L : Lib) (hash : Spe → ℤ) (n : ℕ) (s : Spe) (e : Ev) : Res Spe :=
  if s.isLeaf then leafCondLog cl c L n s e
  else do
    let o ← dnfNormalize c n e
    match o with
    | none => .error .value
    | some d => do
      let d' ← dropNullLog cl c L n s d
      let g ← toDisjoint c n n d'
      let F ← dnfFactor1 c g
      s.condMemLog cl c L hash n F

/-! ## Densities -/

/-- spe.py 861-869 `ContinuousLeaf.logpdf__` on a number. -/
noncomputable def RLeaf.logpdf (cl : CloseTest) (L : Lib) (l : RLeaf) (x : ℝ) : Res Flt :=
  if l.cond = false then .ok (some (wlog (L.pdf l.d x)))
  else do
    let b ← (SSet.pc (.ivl l.supp)).contains (.num (x : EReal))
    if b = true then do
      let z ← l.logZ cl L
      .ok (fminus (some (wlog (L.pdf l.d x))) z)
    else .ok (some ⊥)

/-- spe.py 985-987: `log(w.numerator) - log(w.denominator)`. -/
noncomputable def fracLog (w : ℚ) : Res Flt := do
  let a ← mlog w.num
  let b ← mlog w.den
  .ok (fminus a b)

/-- `logpdf__`: spe.py 861-869 (continuous), 906-914 (discrete), 983-987 (nominal), 690-691 (atomic leaves do not override it). -/
noncomputable def leafLogpdf (cl : CloseTest) (L : Lib) : Spe → Val ℝ → Res Flt
  | .real _ _ _ _ _ _, .str _ => .ok (some ⊥)
  | .real .cont _ d supp cond _, .num x => RLeaf.logpdf cl L ⟨.cont, d, supp, cond⟩ x
  | .real .disc _ d supp cond _, .num x => RLeaf.logpmf cl L ⟨.disc, d, supp, cond⟩ (x : EReal)
  | .nominal _ _, .num _ => .ok (some ⊥)
  | .nominal _ dist, .str x =>
    match dist.lookup x with
    | none => .ok (some ⊥)
    | some w => fracLog w
  | _, _ => .error .notImplemented

/-- spe.py 671-677 `LeafSPE.logpdf_mem`. -/
noncomputable def leafLogpdfMem (cl : CloseTest) (L : Lib) (s : Spe) (a : Point) : Res (ℕ × Flt) := do
  let v ← leafValue s a
  let w ← leafLogpdf cl L s v
  .ok (leafDim s, w)

/-- spe.py 272-277: the mixture of densities `ds` of the children. -/
noncomputable def mixLogpdf (ws : List ℝ) (ds : List (ℕ × Flt)) : ℕ × Flt :=
  match ((ds.filter (fun q => !fnull q.2)).map Prod.fst).min? with
  | none => (0, some ⊥)
  | some m => (m, flse (((ds.zip ws).filter (fun q => q.1.1 = m)).map (fun q => fadd (some (wlog q.2)) q.1.2)))

/-- spe.py 571-572: the sums of the dimensions and of the logarithms. -/
noncomputable def prodLogpdf : List (ℕ × Flt) → Res (ℕ × Flt)
  | [] => .error .type
  | d :: ds => .ok (ds.foldl (fun x y => (x.1 + y.1, fadd x.2 y.2)) d)

mutual
/-- `logpdf_mem`: spe.py 671-677 (leaves), 269-277 (sums), 563-572 (products). -/
noncomputable def Spe.logpdfMem (cl : CloseTest) (L : Lib) : Spe → Point → Res (ℕ × Flt)
  | .real k sym d supp cond env, a => leafLogpdfMem cl L (.real k sym d supp cond env) a
  | .atomic sym v env, a => leafLogpdfMem cl L (.atomic sym v env) a
  | .nominal sym dist, a => leafLogpdfMem cl L (.nominal sym dist) a
  | .sum cs ws, a => do
    let ds ← callAll (Spe.logpdfMemL cl L cs) a
    .ok (mixLogpdf ws ds)
  | .prod cs, a => do
    let parts ← splitPoint (Spe.symbolsL cs) a
    let ds ← parts.mapM (fun q =>
      match (Spe.logpdfMemL cl L cs)[q.1]? with
      | some f => f q.2
      | none => .error .index)
    prodLogpdf ds
/-- The methods `logpdf_mem` of the children. -/
noncomputable def Spe.logpdfMemL (cl : CloseTest) (L : Lib) : List Spe → List (Point → Res (ℕ × Flt))
  | [] => []
  | s :: ss => Spe.logpdfMem cl L s :: Spe.logpdfMemL cl L ss
end

/-- `logpdf`: spe.py 183-186, 645-648. -/
noncomputable def Spe.logpdf (cl : CloseTest) (L : Lib) (s : Spe) (a : Point) : Res Flt := do
  let q ← s.logpdfMem cl L a
  .ok q.2

/-- `constrain__`: spe.py 819-821, 1023-1025, 692-693. -/
noncomputable def leafConstrainLog (cl : CloseTest) (L : Lib) (s : Spe) (v : Val ℝ) : Res Spe := do
  let w ← leafLogpdf cl L s v
  if fnull w then .error .assertion
  else
    match s, v with
    | .real _ sym _ _ _ _, .num x => .ok (.atomic sym x [(sym, .id sym)])
    | .nominal sym _, .str x => mkNominal sym [(x, 1)]
    | _, _ => .error .notImplemented

/-- spe.py 678-683 `LeafSPE.constrain_mem`. -/
noncomputable def leafConstrainMemLog (cl : CloseTest) (L : Lib) (s : Spe) (a : Point) : Res Spe := do
  let v ← leafValue s a
  leafConstrainLog cl L s v

/-- spe.py 282-289: the mixture of the children of least dimension with positive density. -/
noncomputable def constrainSumLog (cl : CloseTest) (ws : List ℝ) (ds : List (ℕ × Flt)) (fs : List (Point → Res Spe)) (a : Point) : Res Spe :=
  match ((ds.filter (fun q => !fnull q.2)).map Prod.fst).min? with
  | none => .error .assertion
  | some m => do
    let good := ((ds.zip ws).zip fs).filter (fun r => !fnull r.1.1.2 ∧ r.1.1.1 = m)
    let children ← good.mapM (fun r => r.2 a)
    match children with
    | [s] => .ok s
    | cs => mkSumLog cl cs (fnorm (good.map (fun r => fadd r.1.1.2 (some (wlog r.1.2)))))

mutual
/-- `constrain_mem`: spe.py 678-683 (leaves), 279-289 (sums), 574-585 (products). -/
noncomputable def Spe.constrainMemLog (cl : CloseTest) (L : Lib) : Spe → Point → Res Spe
  | .real k sym d supp cond env, a => leafConstrainMemLog cl L (.real k sym d supp cond env) a
  | .atomic sym v env, a => leafConstrainMemLog cl L (.atomic sym v env) a
  | .nominal sym dist, a => leafConstrainMemLog cl L (.nominal sym dist) a
  | .sum cs ws, a => do
    let ds ← callAll (Spe.logpdfMemL cl L cs) a
    constrainSumLog cl ws ds (Spe.constrainMemLogL cl L cs) a
  | .prod cs, a => do
    let children ← (cs.zip (Spe.constrainMemLogL cl L cs)).mapM (fun p =>
      let sub := a.filter (fun q => decide (q.1 ∈ p.1.symbols))
      if sub = [] then .ok p.1 else p.2 sub)
    mkProd children
/-- The methods `constrain_mem` of the children. -/
noncomputable def Spe.constrainMemLogL (cl : CloseTest) (L : Lib) : List Spe → List (Point → Res Spe)
  | [] => []
  | s :: ss => Spe.constrainMemLog cl L s :: Spe.constrainMemLogL cl L ss
end

/-- `constrain`: spe.py 187-190, 649-652. -/
noncomputable def Spe.constrainLog (cl : CloseTest) (L : Lib) (s : Spe) (a : Point) : Res Spe := s.constrainMemLog cl L a

end Sppl
