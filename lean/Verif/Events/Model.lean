import Verif.Sets.Model
import Mathlib.Data.EReal.Operations
import Mathlib.Analysis.SpecialFunctions.Log.Base
import Mathlib.Analysis.SpecialFunctions.Pow.Real

/-!
# Model of `/repo/src/transforms.py` (transforms, inversion, events)

Numbers are extended reals: floating-point and sympy numbers are idealised as exact reals.  Expressions
that Python builds as objects are terms of `Tr` and `Ev`; the attribute `symbols` is recomputed.
An `Event` used as a numeric subexpression of another transform is not modelled.
-/

namespace Sppl
open Classical

mutual
/-- transforms.py 345-789, the numeric transforms.  `Radical` is modelled for natural degrees. The list
`domains` is the attribute computed by `Piecewise.__init__` (transforms.py 708). -/
inductive Tr
  | id (token : String)
  | radical (sub : Tr) (degree : ℕ)
  | exp (sub : Tr) (base : ℝ)
  | log (sub : Tr) (base : ℝ)
  | abs (sub : Tr)
  | recip (sub : Tr)
  | poly (sub : Tr) (coeffs : List ℝ)
  | pw (subs : List Tr) (events : List Ev) (domains : List (SSet EReal))
/-- transforms.py 794-1194, events: `EventInterval`, `EventFiniteReal`, `EventFiniteNominal`
(`none` stands for `values is EmptySet`), `EventOr`, `EventAnd`. -/
inductive Ev
  | ivl (sub : Tr) (i : Ivl EReal)
  | fin (sub : Tr) (s : Option (Finset EReal))
  | nom (sub : Tr) (n : Option Nom)
  | or (es : List Ev)
  | and (es : List Ev)
end

instance : Inhabited Tr := ⟨.id ""⟩
instance : Inhabited Ev := ⟨.or []⟩

/-- The services outside the modelled code: frozenset iteration orders, and sympy's polynomial
solver.  `polyRange c` is `Poly.range()` (transforms.py 638-644), `polyIneq c b strict` is
`solve_poly_inequality` for finite `b` (poly.py 38-51), `polyEq c b` is `solve_poly_equality` for finite
`b` (poly.py 108-122), `limPos`/`limNeg` are `sympy.limit` at the infinities (poly.py 137-138). -/
structure Ctx where
  σ : Orders EReal
  iter : Finset EReal → List EReal
  mem_iter : ∀ s x, x ∈ iter s ↔ x ∈ s
  polyRange : List ℝ → Res (SSet EReal)
  polyIneq : List ℝ → ℝ → Bool → Res (SSet EReal)
  polyEq : List ℝ → ℝ → Res (SSet EReal)
  limPos : List ℝ → EReal
  limNeg : List ℝ → EReal

/-! ## Symbols -/

mutual
/-- `get_symbols` of a transform: transforms.py 47-48, 363, 1225-1231 (`make_subexpr` copies the symbols
of the subexpression), 761-772 for `Piecewise`. -/
def Tr.symbols : Tr → Finset String
  | .id s => {s}
  | .radical t _ => t.symbols
  | .exp t _ => t.symbols
  | .log t _ => t.symbols
  | .abs t => t.symbols
  | .recip t => t.symbols
  | .poly t _ => t.symbols
  | .pw ts _ _ => Tr.symbolsL ts
/-- `get_union` of the symbols of a list (sym_util.py 21-22). -/
def Tr.symbolsL : List Tr → Finset String
  | [] => ∅
  | t :: ts => t.symbols ∪ Tr.symbolsL ts
end

mutual
/-- `get_symbols` of an event: transforms.py 1225-1231, 1081. -/
def Ev.symbols : Ev → Finset String
  | .ivl t _ => t.symbols
  | .fin t _ => t.symbols
  | .nom t _ => t.symbols
  | .or es => Ev.symbolsL es
  | .and es => Ev.symbolsL es
/-- `get_union` of the symbols of a list (sym_util.py 21-22). -/
def Ev.symbolsL : List Ev → Finset String
  | [] => ∅
  | t :: ts => t.symbols ∪ Ev.symbolsL ts
end

/-! ## Ranges and inversion of transforms -/

/-- sets.py 411 `ExtReals`. -/
noncomputable def extReals (c : Ctx) : Res (SSet EReal) :=
  mkUnion c.σ [.pc (.fin {⊥, ⊤}), SSet.reals]

/-- sets.py 409, 412 `ExtRealsPos`. -/
noncomputable def extRealsPos (c : Ctx) : Res (SSet EReal) := do
  let p ← mkIvl (0 : EReal) ⊤ false false
  mkUnion c.σ [.pc (.fin {⊤}), .pc (.ivl p)]

/-- transforms.py 581-582 `Reciprocal.range`. -/
noncomputable def recipRange (c : Ctx) : Res (SSet EReal) := do
  let l ← mkIvl (⊥ : EReal) 0 false true
  let r ← mkIvl (0 : EReal) ⊤ true false
  SSet.or c.σ (.pc (.ivl l)) (.pc (.ivl r))

mutual
/-- The `range()` methods: transforms.py 366, 410, 449, 492, 536, 581, 638, 711-713. -/
noncomputable def Tr.range (c : Ctx) : Tr → Res (SSet EReal)
  | .id _ => extReals c
  | .radical _ _ => extRealsPos c
  | .exp _ _ => extRealsPos c
  | .log _ _ => extReals c
  | .abs _ => extRealsPos c
  | .recip _ => recipRange c
  | .poly _ cs => c.polyRange cs
  | .pw ts _ _ => do
    let rs ← Tr.rangeL c ts
    makeUnion c.σ rs
/-- `[subexpr.range() for subexpr in self.subexprs]` (transforms.py 712). -/
noncomputable def Tr.rangeL (c : Ctx) : List Tr → Res (List (SSet EReal))
  | [] => .ok []
  | t :: ts => do
    let r ← t.range c
    let rs ← Tr.rangeL c ts
    .ok (r :: rs)
end

/-- `if not y in self.range(): return EmptySet`, then `k`. -/
noncomputable def ifInRange (r : Res (SSet EReal)) (y : EReal) (k : Res (SSet EReal)) : Res (SSet EReal) := do
  let r ← r
  if ← r.contains (.num y) then k else .ok .empty

/-- poly.py 134-145 `solve_poly_equality_inf`. -/
noncomputable def polyEqInf (c : Ctx) (cs : List ℝ) (b : EReal) : SSet EReal :=
  if c.limPos cs = b ∧ c.limNeg cs = b then .pc (.fin {⊤, ⊥})
  else if c.limPos cs = b then .pc (.fin {⊤})
  else if c.limNeg cs = b then .pc (.fin {⊥})
  else .empty

/-- poly.py 104-122 `solve_poly_equality`. -/
noncomputable def solvePolyEq (c : Ctx) (cs : List ℝ) (b : EReal) : Res (SSet EReal) :=
  if b = ⊥ ∨ b = ⊤ then .ok (polyEqInf c cs b) else c.polyEq cs b.toReal

/-- poly.py 34-51, 84-99 `solve_poly_inequality(expr, b, strict, extended=False)`. -/
noncomputable def solvePolyIneq (c : Ctx) (cs : List ℝ) (b : EReal) (strict : Bool) : Res (SSet EReal) :=
  if b = ⊥ then .ok .empty
  else if b = ⊤ then
    if strict then SSet.or c.σ SSet.reals .empty else .ok SSet.reals
  else c.polyIneq cs b.toReal strict

/-- The `finv` methods on a number: transforms.py 379-382 (Identity), 423-428 (Radical), 462-469
(Exponential; `sympy.log(y, 1)` is not a number), 505-510 (Logarithm; `base**(-oo) = 0`), 549-552 (Abs),
594-599 (Reciprocal), 657-660 (Poly).  `Piecewise.finv` is not used by `invert`. -/
noncomputable def Tr.finv (c : Ctx) : Tr → EReal → Res (SSet EReal)
  | .id _, y => ifInRange (extReals c) y (.ok (.pc (.fin {y})))
  | .radical _ n, y => ifInRange (extRealsPos c) y
      (if y = ⊤ then .ok (.pc (.fin {⊤})) else .ok (.pc (.fin {((y.toReal ^ n : ℝ) : EReal)})))
  | .exp _ b, y => ifInRange (extRealsPos c) y
      (if y = ⊤ then .ok (.pc (.fin {⊤}))
       else if y ≤ 0 then .ok (.pc (.fin {⊥}))
       else if b = 1 then .error .type
       else .ok (.pc (.fin {((Real.logb b y.toReal : ℝ) : EReal)})))
  | .log _ b, y => ifInRange (extReals c) y
      (if y = ⊤ then .ok (.pc (.fin {⊤}))
       else if y = ⊥ then .ok (.pc (.fin {0}))
       else .ok (.pc (.fin {((b ^ y.toReal : ℝ) : EReal)})))
  | .abs _, y => ifInRange (extRealsPos c) y (.ok (.pc (.fin {y, -y})))
  | .recip _, y => ifInRange (recipRange c) y
      (if y = 0 then .ok (.pc (.fin {⊥, ⊤})) else .ok (.pc (.fin {((y.toReal⁻¹ : ℝ) : EReal)})))
  | .poly _ cs, y => ifInRange (c.polyRange cs) y (solvePolyEq c cs y)
  | .pw _ _ _, _ => .error .notImplemented

/-- `next(iter(s))` (transforms.py 352-353); `EmptySet` is not iterable. -/
noncomputable def firstElem (c : Ctx) : SSet EReal → Res EReal
  | .pc (.fin s) =>
    match c.iter s with
    | x :: _ => .ok x
    | [] => .error .type
  | _ => .error .type

/-- The attribute `subexpr` (for `Identity` it is the object itself). -/
def Tr.sub : Tr → Tr
  | .radical t _ => t
  | .exp t _ => t
  | .log t _ => t
  | .abs t => t
  | .recip t => t
  | .poly t _ => t
  | t => t

/-- transforms.py 1215-1219 `transform_interval`. -/
noncomputable def transformInterval (i : Ivl EReal) (a b : EReal) (flip : Bool) : Res (Ivl EReal) :=
  if flip then mkIvl a b i.ro i.lo else mkIvl a b i.lo i.ro

/-- transforms.py 349-355 `Injective.invert_interval`, up to the recursive call. -/
noncomputable def injInterval (c : Ctx) (t : Tr) (i : Ivl EReal) : Res (SSet EReal) := do
  let fa ← t.finv c i.a
  let a ← firstElem c fa
  let fb ← t.finv c i.b
  let b ← firstElem c fb
  let j ← transformInterval i a b false
  .ok (.pc (.ivl j))

/-- transforms.py 556-562 `Abs.invert_interval`, up to the recursive call. -/
noncomputable def absInterval (c : Ctx) (i : Ivl EReal) : Res (SSet EReal) := do
  let p ← transformInterval i i.a i.b false
  let n ← transformInterval i (-i.b) (-i.a) true
  SSet.or c.σ (.pc (.ivl p)) (.pc (.ivl n))

/-- transforms.py 603-617 `Reciprocal.invert_interval`, up to the recursive call. -/
noncomputable def recipInterval (i : Ivl EReal) : Res (SSet EReal) :=
  if 0 ≤ i.a ∧ i.a < i.b then
    if 0 < i.a ∨ i.lo = true then do
      let aInv : EReal := if 0 < i.a then ((i.a.toReal⁻¹ : ℝ) : EReal) else ⊤
      let bInv : EReal := if i.b = ⊤ then 0 else ((i.b.toReal⁻¹ : ℝ) : EReal)
      let j ← transformInterval i bInv aInv true
      .ok (.pc (.ivl j))
    else .error .assertion
  else if i.a < i.b ∧ i.b ≤ 0 then
    if i.b < 0 ∨ i.ro = true then do
      let aInv : EReal := if i.a = ⊥ then 0 else ((i.a.toReal⁻¹ : ℝ) : EReal)
      let bInv : EReal := if i.b < 0 then ((i.b.toReal⁻¹ : ℝ) : EReal) else ⊥
      let j ← transformInterval i bInv aInv true
      .ok (.pc (.ivl j))
    else .error .assertion
  else .error .assertion

/-- transforms.py 664-671 `Poly.invert_interval`, up to the recursive call. -/
noncomputable def polyInterval (c : Ctx) (cs : List ℝ) (i : Ivl EReal) : Res (SSet EReal) := do
  let a ← solvePolyIneq c cs i.a (!i.lo)
  let b ← solvePolyIneq c cs i.b i.ro
  let na ← SSet.invert c.σ a
  SSet.and c.σ b na

/-- transforms.py 786-789 `get_piecewise_inverse` followed by `make_union` (the inner
`make_union(intersections)` returns the list unchanged). -/
noncomputable def pwInverse (c : Ctx) (inv : Tr → SSet EReal → Res (SSet EReal)) (ts : List Tr)
    (ds : List (SSet EReal)) (ys : SSet EReal) : Res (SSet EReal) := do
  let invs ← ts.mapM (fun t => inv t ys)
  let inters ← (invs.zip ds).mapM (fun p => SSet.and c.σ p.1 p.2)
  makeUnion c.σ inters

/-- The `invert_finite` methods: transforms.py 346-348, 383-384, 553-555, 600-602, 661-663, 730-733. -/
noncomputable def Tr.invertFinite (c : Ctx) (inv : Tr → SSet EReal → Res (SSet EReal)) (t : Tr)
    (s : Finset EReal) : Res (SSet EReal) :=
  match t with
  | .id _ => .ok (.pc (.fin s))
  | .pw ts _ ds => pwInverse c inv ts ds (.pc (.fin s))
  | t => do
    let xs ← (c.iter s).mapM (fun y => t.finv c y)
    let u ← makeUnion c.σ xs
    inv t.sub u

/-- The sets passed to `self.subexpr.invert` by the `invert_interval` methods of the non-piecewise
transforms. -/
noncomputable def Tr.intervalPre (c : Ctx) (t : Tr) (i : Ivl EReal) : Res (SSet EReal) :=
  match t with
  | .abs _ => absInterval c i
  | .recip _ => recipInterval i
  | .poly _ cs => polyInterval c cs i
  | t => injInterval c t i

/-- The `invert_interval` methods: transforms.py 349-355, 385-386, 556-562, 603-617, 664-671, 734-737. -/
noncomputable def Tr.invertInterval (c : Ctx) (inv : Tr → SSet EReal → Res (SSet EReal)) (t : Tr)
    (i : Ivl EReal) : Res (SSet EReal) :=
  match t with
  | .id _ => .ok (.pc (.ivl i))
  | .pw ts _ ds => pwInverse c inv ts ds (.pc (.ivl i))
  | t => do
    let u ← t.intervalPre c i
    inv t.sub u

/-- transforms.py 74-83, the body of `Transform.invert` after computing the intersection; `inv` is
the recursive call. -/
noncomputable def Tr.invertStep (c : Ctx) (inv : Tr → SSet EReal → Res (SSet EReal)) (t : Tr) :
    SSet EReal → Res (SSet EReal)
  | .empty => .ok .empty
  | .pc (.fin s) => t.invertFinite c inv s
  | .pc (.ivl i) => t.invertInterval c inv i
  | .un u => do
    let xs ← u.args.mapM (fun p => inv t (.pc p))
    makeUnion c.σ xs
  | .pc (.nom _) => .error .assertion

/-- transforms.py 72-83 `Transform.invert`.  The first argument bounds the depth of Python calls
(`RecursionError` when exceeded). -/
noncomputable def Tr.invert (c : Ctx) : ℕ → Tr → SSet EReal → Res (SSet EReal)
  | 0, _, _ => .error .recursion
  | n + 1, t, ys => do
    let r ← t.range c
    let inter ← SSet.and c.σ r ys
    t.invertStep c (Tr.invert c n) inter

/-! ## Inversion and solution of events -/

/-- The attribute `values` of a basic event. -/
def Ev.values : Ev → SSet EReal
  | .ivl _ i => .pc (.ivl i)
  | .fin _ (some s) => .pc (.fin s)
  | .nom _ (some n) => .pc (.nom n)
  | _ => .empty

/-- transforms.py 917-923, 1004-1010 `EventInterval.finv`, `EventFiniteReal.finv`. -/
noncomputable def Ev.finvReal (c : Ctx) (vals : SSet EReal) (y : EReal) : Res (SSet EReal) :=
  if y = 1 then .ok vals else if y = 0 then SSet.invert c.σ vals else .ok .empty

/-- transforms.py 1035, `isinstance(subexpr, Identity)`. -/
def Tr.isId : Tr → Bool
  | .id _ => true
  | _ => false

/-- transforms.py 1038-1058 `EventFiniteNominal.finv` for `y` 0 or 1. -/
noncomputable def Ev.finvNom (c : Ctx) (t : Tr) (n : Option Nom) (y : EReal) : Res (SSet EReal) :=
  if y = 1 then
    match n with
    | none => .ok .empty
    | some n => if t.isId then .ok (.pc (.nom n)) else if n.neg then .ok SSet.strings else .ok .empty
  else
    match n with
    | none => .ok SSet.strings
    | some n => if t.isId then SSet.invert c.σ (.pc (.nom n)) else if n.neg then .ok .empty else .ok SSet.strings

/-- The `invert_finite` methods of events: transforms.py 924-926, 1011-1013, 1060-1066 (which returns
`None` for `FiniteReal(0, 1)`, modelled as a `TypeError`), 1105-1107, 1155-1157. -/
noncomputable def Ev.invertFinite (c : Ctx) (invT : Tr → SSet EReal → Res (SSet EReal))
    (invE : Ev → SSet EReal → Res (SSet EReal)) (s : Finset EReal) : Ev → Res (SSet EReal)
  | .ivl t i => do
    let xs ← (c.iter s).mapM (fun y => Ev.finvReal c (.pc (.ivl i)) y)
    let u ← makeUnion c.σ xs
    invT t u
  | .fin t v => do
    let xs ← (c.iter s).mapM (fun y => Ev.finvReal c (optFin v) y)
    let u ← makeUnion c.σ xs
    invT t u
  | .nom t v =>
    if s = {0} then Ev.finvNom c t v 0
    else if s = {1} then Ev.finvNom c t v 1
    else .error .type
  | .or es => do
    let xs ← es.mapM (fun e => invE e (.pc (.fin s)))
    makeUnion c.σ xs
  | .and es => do
    let xs ← es.mapM (fun e => invE e (.pc (.fin s)))
    makeIntersection c.σ xs

/-- `event.invert(ys)`: transforms.py 72-83 with `range() = FiniteReal(0, 1)` (795-796). -/
noncomputable def Ev.invert (c : Ctx) : ℕ → Ev → SSet EReal → Res (SSet EReal)
  | 0, _, _ => .error .recursion
  | n + 1, e, ys => do
    let inter ← SSet.and c.σ (.pc (.fin {0, 1})) ys
    match inter with
    | .empty => .ok .empty
    | .pc (.fin s) => e.invertFinite c (Tr.invert c n) (Ev.invert c n) s
    | _ => .error .assertion

/-- transforms.py 804-807, 836-839 `solve`. -/
noncomputable def Ev.solve (c : Ctx) (n : ℕ) (e : Ev) : Res (SSet EReal) :=
  match e with
  | .ivl (.id _) i => .ok (.pc (.ivl i))
  | .fin (.id _) v => .ok (optFin v)
  | .nom (.id _) v => .ok (optNom v)
  | e => if 1 < e.symbols.card then .error .value else Ev.invert c n e (.pc (.fin {1}))

/-! ## Piecewise construction -/

/-- transforms.py 774-784 `get_piecewise_domains`: the pairwise disjointness check. -/
noncomputable def checkDisjoint (c : Ctx) (ds : List (SSet EReal)) : Res Unit :=
  (ds.zipIdx.flatMap (fun p => ds.zipIdx.map (fun q => (p, q)))).forM (fun pq =>
    if pq.1.2 = pq.2.2 then .ok ()
    else do
      let i ← SSet.and c.σ pq.1.1 pq.2.1
      if i.isEmpty then .ok () else .error .value)

/-- transforms.py 704-708, 761-784 `Piecewise.__init__`. -/
noncomputable def mkPiecewise (c : Ctx) (n : ℕ) (ts : List Tr) (es : List Ev) : Res Tr :=
  if ts.length ≠ es.length then .error .value
  else if ts = [] then .error .index
  else if 1 < (Tr.symbolsL ts).card then .error .value
  else if Tr.symbolsL ts ≠ Ev.symbolsL es then .error .value
  else do
    let ds ← es.mapM (fun e => e.solve c n)
    checkDisjoint c ds
    .ok (.pw ts es ds)

/-! ## Boolean operators on events -/

/-- `isinstance(event, EventBasic)`, with its subexpression. -/
def Ev.basic? : Ev → Option Tr
  | .ivl t _ => some t
  | .fin t _ => some t
  | .nom t _ => some t
  | _ => none

/-- The event `EventXxx(subexpr, values)` for a set that is not a `Union` (transforms.py 869-876,
889-896). -/
def Ev.ofSet (t : Tr) : SSet EReal → Option Ev
  | .empty => some (.fin t none)
  | .pc (.fin s) => some (.fin t (some s))
  | .pc (.nom n) => some (.nom t (some n))
  | .pc (.ivl i) => some (.ivl t i)
  | .un _ => none

/-- `self.subexprs` of an `EventAnd`, `(self,)` otherwise. -/
def Ev.conjuncts : Ev → List Ev
  | .and es => es
  | e => [e]

/-- `self.subexprs` of an `EventOr`, `(self,)` otherwise. -/
def Ev.disjuncts : Ev → List Ev
  | .or es => es
  | e => [e]

/-- The simplification attempted by `EventBasic.__and__`/`__or__` (transforms.py 866-876, 886-896):
both events are basic and have equal subexpressions. Python's `==` on expressions is modelled by
structural equality. -/
noncomputable def Ev.simplify (op : SSet EReal → SSet EReal → Res (SSet EReal)) (e f : Ev) :
    Res (Option Ev) :=
  match e.basic?, f.basic? with
  | some t, some u =>
    if t = u then do
      let r ← op e.values f.values
      .ok (Ev.ofSet t r)
    else .ok none
  | _, _ => .ok none

/-- `e & f`: transforms.py 864-883, 1113-1120, 1166-1173. -/
noncomputable def Ev.land (c : Ctx) (e f : Ev) : Res Ev := do
  let g ← Ev.simplify (SSet.and c.σ) e f
  .ok (g.getD (.and (e.conjuncts ++ f.conjuncts)))

/-- `e | f`: transforms.py 884-903, 1121-1128, 1174-1181. -/
noncomputable def Ev.lor (c : Ctx) (e f : Ev) : Res Ev := do
  let g ← Ev.simplify (SSet.or c.σ) e f
  .ok (g.getD (.or (e.disjuncts ++ f.disjuncts)))

/-- The intervals of a `Union` in the order of `args`, when all pieces are intervals
(`EventInterval.__init__` asserts it, transforms.py 913-914). -/
def ivlArgs (t : Tr) : List (Piece EReal) → Res (List Ev)
  | [] => .ok []
  | .ivl i :: ps => do
    let r ← ivlArgs t ps
    .ok (.ivl t i :: r)
  | _ :: _ => .error .assertion

/-- transforms.py 972-981, the result of `~EventInterval` from `~self.values`. -/
noncomputable def notIvl (t : Tr) : SSet EReal → Res Ev
  | .empty => .ok (.fin t none)
  | .pc (.ivl j) => .ok (.ivl t j)
  | .un u =>
    if u.args.length = 2 then (ivlArgs t u.args).map .or else .error .assertion
  | _ => .error .assertion

/-- transforms.py 1024-1028, the result of `~EventFiniteReal` from `~self.values`. -/
noncomputable def notFin (t : Tr) : SSet EReal → Res Ev
  | .pc (.ivl i) => if i = ⟨⊥, ⊤, true, true⟩ then .ok (.ivl t i) else .error .assertion
  | .un u => (ivlArgs t u.args).map .or
  | _ => .error .assertion

/-- transforms.py 1075, the result of `~EventFiniteNominal` from `~self.values` (asserted to be nominal
or empty at 1032). -/
def notNom (t : Tr) : SSet EReal → Res Ev
  | .empty => .ok (.nom t none)
  | .pc (.nom m) => .ok (.nom t (some m))
  | _ => .error .assertion

mutual
/-- `~e`: transforms.py 970-981, 1022-1028, 1073-1075, 1131-1133, 1184-1186. -/
noncomputable def Ev.not (c : Ctx) : Ev → Res Ev
  | .ivl t i => do
    let r ← SSet.invert c.σ (.pc (.ivl i))
    notIvl t r
  | .fin t v => do
    let r ← SSet.invert c.σ (optFin v)
    notFin t r
  | .nom t v => do
    let r ← SSet.invert c.σ (optNom v)
    notNom t r
  | .or es => do
    let fs ← Ev.notL c es
    reduceM (Ev.land c) fs
  | .and es => do
    let fs ← Ev.notL c es
    reduceM (Ev.lor c) fs
/-- `[~event for event in self.subexprs]`. -/
noncomputable def Ev.notL (c : Ctx) : List Ev → Res (List Ev)
  | [] => .ok []
  | e :: es => do
    let f ← e.not c
    let fs ← Ev.notL c es
    .ok (f :: fs)
end

/-- `e ^ f`: transforms.py 825-828. -/
noncomputable def Ev.xor (c : Ctx) (e f : Ev) : Res Ev := do
  let nf ← f.not c
  let a ← e.land c nf
  let ne ← e.not c
  let b ← ne.land c f
  a.lor c b

end Sppl
