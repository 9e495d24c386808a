import Verif.Dnf.Model

/-!
# Model of `/repo/src/spe.py`: construction, probability and conditioning

Python works with logarithms of probabilities; the model works with the probabilities themselves
(`logsumexp` is a sum, `+` of logarithms a product, `lognorm` a division by the total, `-inf` is 0), and
`allclose` is equality: floating-point rounding is not modelled.  The memo table is left out here and added in
`Spe/Memo.lean`.  `PartialSumSPE` is in `Spe/Mix.lean`.
-/

namespace Sppl
open Classical

/-- A frozen scipy distribution: its name and its parameters, and for those made by `rv_discrete` (distributions.py 692-714: `rv_discrete`, `uniformd`,
`discrete`) the table of values and probabilities, which scipy keeps inside `dist.dist`. -/
structure Dist where
  name : String
  args : List ℝ
  kwds : List (String × ℝ)
  values : List (ℝ × ℝ)

/-- What the code compares (spe.py 824, 831-833) and writes (spe_to_dict.py 51-56) of a frozen distribution. -/
def Dist.key (d : Dist) : String × List ℝ × List (String × ℝ) := (d.name, d.args, d.kwds)

/-- `ContinuousLeaf` (spe.py 841) or `DiscreteLeaf` (spe.py 884). -/
inductive Kind
  | cont
  | disc
  deriving DecidableEq

/-- The scipy functions called by the leaves: `dist.cdf`, `dist.pmf`, `dist.pdf` (with their logarithms). -/
structure Lib where
  cdf : Dist → EReal → ℝ
  pmf : Dist → EReal → ℝ
  pdf : Dist → ℝ → ℝ

/-- The SPE objects of spe.py: `ContinuousLeaf`/`DiscreteLeaf` (698-926), `AtomicLeaf` (931-963), `NominalLeaf`
(968-1033), `SumSPE` (203-297; weights are probabilities), `ProductSPE` (421-591).  The attributes derived by the
constructors (`symbols`, `lookup`, `xl`, `logZ`, ...) are recomputed. -/
inductive Spe
  | real (k : Kind) (sym : String) (d : Dist) (supp : Ivl EReal) (cond : Bool) (env : Env)
  | atomic (sym : String) (value : ℝ) (env : Env)
  | nominal (sym : String) (dist : List (String × ℚ))
  | sum (children : List Spe) (weights : List ℝ)
  | prod (children : List Spe)

instance : Inhabited Spe := ⟨.prod []⟩

/-! ## Numbers -/

/-- math_util.py 18-23 `logdiffexp`, on probabilities. -/
noncomputable def pdiff (a b : ℝ) : Res ℝ :=
  if b < a then .ok (a - b) else if b = a then .ok 0 else .error .value

/-- math_util.py 25-27 `lognorm`, on probabilities. -/
noncomputable def pnorm (l : List ℝ) : List ℝ := l.map (fun a => a / l.sum)

/-- `int(x)`: truncation toward zero. -/
noncomputable def truncZ (x : ℝ) : ℤ := if 0 ≤ x then ⌊x⌋ else ⌈x⌉

/-- math_util.py 55 `float_to_int`. -/
noncomputable def floatToInt (x : EReal) : EReal :=
  if x = ⊥ ∨ x = ⊤ then x else (((truncZ x.toReal : ℤ) : ℝ) : EReal)

/-- `float(a) == int(a)` for a finite number (math_util.py 53-54). -/
noncomputable def isInt (x : EReal) : Bool := decide (∃ n : ℤ, x = ((n : ℝ) : EReal))

/-- math_util.py 53 `int_or_isinf_neg`; `int(inf)` raises `OverflowError` (modelled as `ValueError`). -/
noncomputable def intOrNegInf (x : EReal) : Res Bool :=
  if x = ⊥ then .ok true else if x = ⊤ then .error .value else .ok (isInt x)

/-- math_util.py 54 `int_or_isinf_pos`. -/
noncomputable def intOrPosInf (x : EReal) : Res Bool :=
  if x = ⊤ then .ok true else if x = ⊥ then .error .value else .ok (isInt x)

/-- `assert b`. -/
def assertB (b : Bool) : Res Unit := if b then .ok () else .error .assertion

/-! ## Symbols and constructors -/

mutual
/-- `get_symbols`: spe.py 602-603 (leaves), 155-156 with 226 (sums) and 435 (products). -/
def Spe.symbols : Spe → Finset String
  | .real _ _ _ _ _ env => (env.map Prod.fst).toFinset
  | .atomic _ _ env => (env.map Prod.fst).toFinset
  | .nominal s _ => {s}
  | .sum cs _ => (Spe.symbolsL cs).headD ∅
  | .prod cs => (Spe.symbolsL cs).foldr (· ∪ ·) ∅
/-- `[spe.get_symbols() for spe in children]`. -/
def Spe.symbolsL : List Spe → List (Finset String)
  | [] => []
  | s :: ss => s.symbols :: Spe.symbolsL ss
end

/-- sym_util.py 27-29 `are_disjoint` on a non-empty list. -/
def areDisjoint (l : List (Finset String)) : Bool :=
  (l.foldr (· ∪ ·) ∅).card == (l.map Finset.card).sum

/-- sym_util.py 31-33 `are_identical` on a non-empty list. -/
def areIdentical : List (Finset String) → Bool
  | [] => true
  | a :: l => (a :: l).all (fun s => s.card == (l.foldl (· ∩ ·) a).card)

/-- spe.py 208-212: the children contributed by an argument of `SumSPE`. -/
def Spe.sumChildren : Spe → List Spe
  | .sum cs _ => cs
  | s => [s]

/-- spe.py 213-217: the weights contributed by an argument of `SumSPE` of weight `w`. -/
noncomputable def Spe.sumWeights (s : Spe) (w : ℝ) : List ℝ :=
  match s with
  | .sum _ ws => ws.map (fun w' => w * w')
  | _ => [w]

/-- spe.py 206-226 `SumSPE.__init__`. -/
noncomputable def mkSum (cs : List Spe) (ws : List ℝ) : Res Spe :=
  if cs.length ≠ ws.length then .error .assertion
  else
    let children := cs.flatMap Spe.sumChildren
    let weights := (cs.zip ws).flatMap (fun p => p.1.sumWeights p.2)
    if ws.sum ≠ 1 then .error .assertion
    else if children = [] then .error .index
    else if areIdentical (Spe.symbolsL children) then .ok (.sum children weights)
    else .error .value

/-- spe.py 425-428: the children contributed by an argument of `ProductSPE`. -/
def Spe.prodChildren : Spe → List Spe
  | .prod cs => cs
  | s => [s]

/-- spe.py 424-435 `ProductSPE.__init__`. -/
noncomputable def mkProd (cs : List Spe) : Res Spe :=
  let children := cs.flatMap Spe.prodChildren
  if children = [] then .error .index
  else if areDisjoint (Spe.symbolsL children) then .ok (.prod children)
  else .error .value

/-- spe.py 593-594 `spe_list_to_product`. -/
noncomputable def listToProd : List Spe → Res Spe
  | [s] => .ok s
  | cs => mkProd cs

/-! ## Leaves over the reals -/

/-- The attributes of a real leaf that matter for its distribution. -/
structure RLeaf where
  k : Kind
  d : Dist
  supp : Ivl EReal
  cond : Bool

/-- spe.py 846 (continuous), 891 (discrete): the attribute `xl`. -/
noncomputable def RLeaf.xl (l : RLeaf) : EReal :=
  match l.k with
  | .cont => l.supp.a
  | .disc => floatToInt l.supp.a + (if l.supp.lo then 1 else 0)

/-- spe.py 847 (continuous), 892 (discrete): the attribute `xu`. -/
noncomputable def RLeaf.xu (l : RLeaf) : EReal :=
  match l.k with
  | .cont => l.supp.b
  | .disc => floatToInt l.supp.b - (if l.supp.ro then 1 else 0)

/-- spe.py 851 (continuous), 896 (discrete): `exp(logFl)` of a conditioned leaf. -/
noncomputable def RLeaf.Fl (L : Lib) (l : RLeaf) : ℝ :=
  match l.k with
  | .cont => L.cdf l.d l.xl
  | .disc => L.cdf l.d (l.xl - 1)

/-- spe.py 853, 898: `exp(logZ)` of a conditioned leaf. -/
noncomputable def RLeaf.Z (L : Lib) (l : RLeaf) : Res ℝ := pdiff (L.cdf l.d l.xu) (l.Fl L)

/-- spe.py 741-749 `logcdf`. -/
noncomputable def RLeaf.cdf (L : Lib) (l : RLeaf) (x : EReal) : Res ℝ :=
  if l.cond = false then .ok (L.cdf l.d x)
  else if l.xu < x then .ok 1
  else if x < l.xl then .ok 0
  else do
    let p ← pdiff (L.cdf l.d x) (l.Fl L)
    let z ← l.Z L
    .ok (p / z)

/-- spe.py 906-914 `DiscreteLeaf.logpdf__` on a number. -/
noncomputable def RLeaf.pmf (L : Lib) (l : RLeaf) (x : EReal) : Res ℝ :=
  if l.cond = false then .ok (L.pmf l.d x)
  else if x < l.xl ∨ l.xu < x then .ok 0
  else do
    let z ← l.Z L
    .ok (L.pmf l.d x / z)

/-- spe.py 871-872, 916-918 `logprob_finite__`.  The iteration order of the set does not matter for the sum of
numbers; an increasing order is used. -/
noncomputable def RLeaf.probFinite (L : Lib) (l : RLeaf) (s : Finset EReal) : Res ℝ :=
  match l.k with
  | .cont => .ok 0
  | .disc => do
    let ps ← (s.sort (· ≤ ·)).mapM (l.pmf L)
    .ok ps.sum

/-- spe.py 920: the left end is a possible value that belongs to the interval. -/
noncomputable def leftIncl (i : Ivl EReal) : Res Bool := if i.lo then .ok false else intOrNegInf i.a

/-- spe.py 921: the right end is a possible value that does not belong to the interval. -/
noncomputable def rightExcl (i : Ivl EReal) : Res Bool := if i.ro then intOrPosInf i.b else .ok false

/-- spe.py 874-879 (continuous), 919-926 (discrete) `logprob_interval__`. -/
noncomputable def RLeaf.probIvl (L : Lib) (l : RLeaf) (i : Ivl EReal) : Res ℝ :=
  match l.k with
  | .cont => do
    let fl ← l.cdf L i.a
    let fu ← l.cdf L i.b
    pdiff fu fl
  | .disc => do
    let il ← leftIncl i
    let ir ← rightExcl i
    let fl ← l.cdf L (floatToInt i.a - (if il then 1 else 0))
    let fu ← l.cdf L (floatToInt i.b - (if ir then 1 else 0))
    pdiff fu fl

/-- spe.py 756-766 `logprob_values__` on a set that is not a union. -/
noncomputable def RLeaf.probPiece (L : Lib) (l : RLeaf) : Piece EReal → Res ℝ
  | .fin s => l.probFinite L s
  | .ivl i => l.probIvl L i
  | .nom _ => .error .assertion

/-- spe.py 756-766 `logprob_values__`. -/
noncomputable def RLeaf.probValues (L : Lib) (l : RLeaf) : SSet EReal → Res ℝ
  | .empty => .ok 0
  | .pc p => l.probPiece L p
  | .un u => do
    let ps ← u.args.mapM (l.probPiece L)
    .ok ps.sum

/-- spe.py 701-716, 844-859, 887-904: the constructors of real leaves, with the assertions of
`DiscreteLeaf` and the computation of `logZ`.  (An empty `env` argument means the default, spe.py 708; the
environments passed here are never empty.) -/
noncomputable def mkReal (L : Lib) (l : RLeaf) (sym : String) (env : Env) : Res Spe := do
  match l.k with
  | .cont => .ok ()
  | .disc => do
    let a ← intOrNegInf l.supp.a
    assertB a
    let b ← intOrPosInf l.supp.b
    assertB b
  if l.cond then do
    let _ ← l.Z L
    .ok (.real l.k sym l.d l.supp l.cond env)
  else .ok (.real l.k sym l.d l.supp l.cond env)

/-- sets.py 419-423 `Range`. -/
noncomputable def mkRange (start stop : EReal) : Res (Ivl EReal) := do
  let a ← intOrNegInf start
  assertB a
  let b ← intOrPosInf stop
  assertB b
  mkIvl start (stop + (if start = stop then 1 else 0)) false (decide (start = stop))

/-- sym_util.py 58-64: the loop of `partition_finite_real_contiguous` over the remaining sorted values; the
last block is kept in reverse. -/
noncomputable def contigLoop (last : EReal) (block : List EReal) : List EReal → List (List EReal)
  | [] => [block.reverse]
  | y :: ys =>
    if y = last + 1 then contigLoop y (y :: block) ys
    else block.reverse :: contigLoop y [y] ys

/-- sym_util.py 54-65 `partition_finite_real_contiguous`; the blocks are sorted lists. -/
noncomputable def partitionContiguous (s : Finset EReal) : Res (List (List EReal)) :=
  match s.sort (· ≤ ·) with
  | [] => .error .index
  | y :: ys => .ok (contigLoop y [y] ys)

/-- spe.py 779: `Range(min(v), max(v))` of a non-empty sorted block. -/
noncomputable def blockRange (b : List EReal) : Res (Ivl EReal) :=
  match b.head?, b.getLast? with
  | some x, some y => mkRange x y
  | _, _ => .error .value

/-- spe.py 773-783 `flatten_values_contiguous` on a set that is not a union. -/
noncomputable def flattenPiece (k : Kind) : Piece EReal → Res (List (Ivl EReal))
  | .ivl i => .ok [i]
  | .fin s =>
    match k with
    | .cont => .error .assertion
    | .disc => do
      let bs ← partitionContiguous s
      bs.mapM blockRange
  | .nom _ => .error .assertion

/-- spe.py 773-783 `flatten_values_contiguous`. -/
noncomputable def flattenValues (k : Kind) : SSet EReal → Res (List (Ivl EReal))
  | .pc p => flattenPiece k p
  | .un u => do
    let ls ← u.args.mapM (flattenPiece k)
    .ok ls.flatten
  | .empty => .error .assertion

/-! ## Leaves -/

/-- spe.py 626-628, 636-638: `event.substitute(self.env)` with the assertions of `LeafSPE.logprob` and
`LeafSPE.condition`. -/
noncomputable def leafSubst (c : Ctx) (n : ℕ) (sym : String) (env : Env) (e : Ev) : Res Ev := do
  let r ← e.substitute c n env n
  if ∀ s ∈ e.symbols, s ∈ env.map Prod.fst then
    if r.symbols = {sym} then .ok r else .error .assertion
  else .error .assertion

/-- spe.py 971-981 `NominalLeaf.__init__`. -/
def mkNominal (sym : String) (dist : List (String × ℚ)) : Res Spe := do
  let _ ← mkNom (dist.map Prod.fst).toFinset none
  if (dist.map Prod.snd).sum = 1 then .ok (.nominal sym dist) else .error .assertion

/-- `self.support & solution` of a nominal leaf (spe.py 978, 999, 1009). -/
noncomputable def nominalValues (c : Ctx) (dist : List (String × ℚ)) (S : SSet EReal) : Res (SSet EReal) := do
  let n ← mkNom (dist.map Prod.fst).toFinset none
  SSet.and c.σ (.pc (.nom n)) S

/-- `sum(self.dist[x] for x in values)` (spe.py 1004, 1012); the order of iteration does not matter for the sum. -/
noncomputable def nominalMass (dist : List (String × ℚ)) (vals : Finset String) : Res ℚ := do
  let ws ← (vals.sort (· ≤ ·)).mapM (fun x =>
    match dist.lookup x with
    | some w => .ok w
    | none => .error .key)
  .ok ws.sum

/-- spe.py 751-754 (real), 949-951 (atomic), 997-1005 (nominal): `logprob__` of a solved event. -/
noncomputable def leafProbSet (c : Ctx) (L : Lib) : Spe → SSet EReal → Res ℝ
  | .real k _ d supp cond _, S => do
    let V ← SSet.and c.σ (.pc (.ivl supp)) S
    RLeaf.probValues L ⟨k, d, supp, cond⟩ V
  | .atomic _ v _, S => do
    let b ← S.contains (.num (v : EReal))
    .ok (if b then 1 else 0)
  | .nominal _ dist, S => do
    let V ← nominalValues c dist S
    match V with
    | .empty => .ok 0
    | .pc (.nom m) =>
      if m = ⟨∅, some true⟩ then .ok 1
      else do
        let p ← nominalMass dist m.vals
        .ok (p : ℝ)
    | _ => .error .type
  | _, _ => .error .notImplemented

/-- The attributes `symbol` and `env` of a leaf (spe.py 704-708, 935-938, 974-977). -/
def Spe.leafEnv : Spe → Option (String × Env)
  | .real _ sym _ _ _ env => some (sym, env)
  | .atomic sym _ env => some (sym, env)
  | .nominal sym _ => some (sym, [(sym, .id sym)])
  | _ => none

/-- spe.py 625-634 `LeafSPE.logprob`. -/
noncomputable def leafProb (c : Ctx) (L : Lib) (n : ℕ) (s : Spe) (e : Ev) : Res ℝ :=
  match s.leafEnv with
  | none => .error .notImplemented
  | some (sym, env) => do
    let r ← leafSubst c n sym env e
    let S ← r.solve c n
    leafProbSet c L s S

/-- spe.py 798-815: the leaf conditioned on the intervals `is`. -/
noncomputable def condIvls (L : Lib) (l : RLeaf) (sym : String) (env : Env) (is : List (Ivl EReal)) : Res Spe := do
  let ps ← is.mapM (l.probIvl L)
  let good := (is.zip ps).filter (fun q => q.2 ≠ 0)
  if is = [] then .error .index
  else if good = [] then .error .value
  else do
    let children ← good.mapM (fun q => mkReal L ⟨l.k, l.d, q.1, true⟩ sym env)
    match children with
    | [s] => .ok s
    | cs => mkSum cs (pnorm (good.map Prod.snd))

/-- spe.py 785-815 `RealLeaf.condition__` of a solved event. -/
noncomputable def condReal (c : Ctx) (L : Lib) (l : RLeaf) (sym : String) (env : Env) (S : SSet EReal) : Res Spe := do
  let V ← SSet.and c.σ (.pc (.ivl l.supp)) S
  let w ← l.probValues L V
  if w = 0 then .error .value
  else if V = .pc (.ivl l.supp) then .ok (.real l.k sym l.d l.supp l.cond env)
  else do
    let is ← flattenValues l.k V
    condIvls L l sym env is

/-- spe.py 1015-1021: the nominal leaf conditioned on a set of values of total mass `p`. -/
def condNominal (sym : String) (dist : List (String × ℚ)) (vals : Finset String) (p : ℚ) : Res Spe :=
  if p = 0 then .error .value
  else if p = 1 then .ok (.nominal sym dist)
  else mkNominal sym (dist.map (fun q => (q.1, if q.1 ∈ vals then q.2 / p else 0)))

/-- `condition__`: spe.py 785-815 (real), 952-955 (atomic), 1007-1021 (nominal).  The dictionary built at 1017-1020
is in the iteration order of the support; the order of the outcomes is kept here. -/
noncomputable def leafCondSet (c : Ctx) (L : Lib) : Spe → SSet EReal → Res Spe
  | .real k sym d supp cond env, S => condReal c L ⟨k, d, supp, cond⟩ sym env S
  | .atomic sym v env, S => do
    let b ← S.contains (.num (v : EReal))
    assertB b
    .ok (.atomic sym v env)
  | .nominal sym dist, S => do
    let V ← nominalValues c dist S
    match V with
    | .empty => .error .value
    | .pc (.nom m) => do
      let p ← nominalMass dist m.vals
      condNominal sym dist m.vals p
    | _ => .error .type
  | _, _ => .error .notImplemented

/-- spe.py 635-644 `LeafSPE.condition`. -/
noncomputable def leafCond (c : Ctx) (L : Lib) (n : ℕ) (s : Spe) (e : Ev) : Res Spe :=
  match s.leafEnv with
  | none => .error .notImplemented
  | some (sym, env) => do
    let r ← leafSubst c n sym env e
    let S ← r.solve c n
    leafCondSet c L s S

/-! ## Hashes -/

/-- Whether `hash` of a transform returns: transforms.py 393-394, 438-440, 481-483, 524-526, 569-571, 625-627, 696-698; 757-759 hashes a tuple of
lists, so that for `Piecewise` it raises `TypeError`. -/
def Tr.hashable : Tr → Bool
  | .id _ => true
  | .radical t _ => t.hashable
  | .exp t _ => t.hashable
  | .log t _ => t.hashable
  | .abs t => t.hashable
  | .recip t => t.hashable
  | .poly t _ => t.hashable
  | .pw _ _ _ => false

mutual
/-- Whether `hash` of an event returns: transforms.py 908-910 (basic events), 1139-1141 and 1192-1194 (compound events). -/
def Ev.hashable : Ev → Bool
  | .ivl t _ => t.hashable
  | .fin t _ => t.hashable
  | .nom t _ => t.hashable
  | .or es => Ev.hashableL es
  | .and es => Ev.hashableL es
/-- `hash` of a tuple of events. -/
def Ev.hashableL : List Ev → Bool
  | [] => true
  | e :: es => e.hashable && Ev.hashableL es
end

/-- spe.py 626-632, 636-642: with a memo, `LeafSPE.logprob` and `LeafSPE.condition` look up a key that contains the substituted event, whose
hash is computed. -/
noncomputable def leafKey (c : Ctx) (n : ℕ) (s : Spe) (e : Ev) : Res Unit :=
  match s.leafEnv with
  | none => .ok ()
  | some (sym, env) => do
    let r ← leafSubst c n sym env e
    if r.hashable then .ok () else .error .type

/-- A query to a leaf, or to another SPE, with a memo. -/
noncomputable def keyed {α : Type} (c : Ctx) (n : ℕ) (s : Spe) (e : Ev) (r : Res α) : Res α := do
  let _ ← leafKey c n s e
  r

/-! ## Factored events -/

/-- A factored event: a tuple of dictionaries from symbols to events (`dnf_factor`). -/
abbrev Factor := List (Clause String)

/-- spe.py 1079-1084 `event_factor_to_event`. -/
noncomputable def factorEvent (c : Ctx) (F : Factor) : Res Ev := do
  let cs ← F.mapM (fun m => reduceM (Ev.land c) (m.map Prod.snd))
  reduceM (Ev.lor c) cs

/-! ## Products: inclusion-exclusion -/

/-- spe.py 434 `self.lookup`, and `KeyError`. -/
def lookupChild (syms : List (Finset String)) (s : String) : Res ℕ :=
  match syms.findIdx? (fun S => decide (s ∈ S)) with
  | some i => .ok i
  | none => .error .key

/-- spe.py 537-546: the loop over the symbols of one clause. -/
noncomputable def conjClauseLoop (c : Ctx) (syms : List (Finset String)) (key : ℕ) (acc : Clause String) (m : Clause String) :
    Res (Clause String) :=
  m.foldlM (fun acc p => do
    let i ← lookupChild syms p.1
    if i = key then Clause.addAnd c p.1 p.2 acc else .ok acc) acc

/-- spe.py 537-546: the conjunction of the events about child `key` in the clauses `J`. -/
noncomputable def conjClause (c : Ctx) (syms : List (Finset String)) (key : ℕ) (ms : List (Clause String)) : Res (Clause String) :=
  ms.foldlM (fun acc m => conjClauseLoop c syms key acc m) []

/-- spe.py 537-549 `logprob_conjunction_key`; `fs` are the methods `logprob_mem` of the children. -/
noncomputable def conjKey (c : Ctx) (syms : List (Finset String)) (fs : List (Factor → Res ℝ)) (ms : List (Clause String))
    (key : ℕ) : Res ℝ := do
  let cl ← conjClause c syms key ms
  if cl = [] then .ok 0
  else
    match fs[key]? with
    | some f => f [cl]
    | none => .error .index

/-- spe.py 531: `set(self.lookup[s] for j in J for s in event_factor[j])`, in order of first occurrence from the
end (the order does not matter for the product of numbers). -/
noncomputable def conjKeys (syms : List (Finset String)) (ms : List (Clause String)) : Res (List ℕ) := do
  let ks ← (ms.flatMap (fun m => m.map Prod.fst)).mapM (lookupChild syms)
  .ok ks.dedup

/-- spe.py 529-535 `logprob_conjunction` of the clauses `ms`. -/
noncomputable def conjProb (c : Ctx) (syms : List (Finset String)) (fs : List (Factor → Res ℝ)) (ms : List (Clause String)) :
    Res ℝ := do
  let ks ← conjKeys syms ms
  let ps ← ks.mapM (conjKey c syms fs ms)
  .ok ps.prod

/-- spe.py 490-492: the subset contains a subset known to have probability zero. -/
def isBad (avoid : List (List ℕ)) (J : List ℕ) : Bool :=
  avoid.any (fun b => decide (b.length ≤ J.length) && b.all (fun z => decide (z ∈ J)))

/-- spe.py 500-502: the subsets pushed on the stack. -/
def ieNext (m : ℕ) (J : List ℕ) (i : ℕ) : List (List ℕ × ℕ) :=
  (List.range' (i + 1) (m - (i + 1))).map (fun k => (J ++ [k], k))

/-- The number of subsets below an entry of the stack. -/
def ieMeasure (m : ℕ) (stack : List (List ℕ × ℕ)) : ℕ := (stack.map (fun q => 2 ^ (m - q.2))).sum

theorem ieMeasure_next (m : ℕ) (J : List ℕ) (i : ℕ) : ieMeasure m (ieNext m J i) < 2 ^ (m - i) := by
  unfold ieMeasure ieNext
  rw [List.map_map]
  have : ∀ d i, d = m - (i + 1) → ((List.range' (i + 1) d).map ((fun q : List ℕ × ℕ => 2 ^ (m - q.2)) ∘ fun k => (J ++ [k], k))).sum <
      2 ^ (m - i) := by
    intro d
    induction d with
    | zero => intro i _; simp
    | succ d ih =>
      intro i hd
      have h := ih (i + 1) (by omega)
      simp only [List.range'_succ, List.map_cons, List.sum_cons, Function.comp]
      have e : m - i = (m - (i + 1)) + 1 := by omega
      rw [e, pow_succ]
      simp only [Function.comp_def] at h ⊢
      omega
  exact this _ i rfl

/-- spe.py 486-502, the `while` loop: `f J` is the probability of the conjunction of the clauses `J`; the
result is `(logps_pos, logps_neg)`. -/
noncomputable def ieLoop (m : ℕ) (f : List ℕ → Res ℝ) (stack : List (List ℕ × ℕ)) (avoid : List (List ℕ))
    (pos neg : List ℝ) : Res (List ℝ × List ℝ) :=
  match stack with
  | [] => .ok (pos, neg)
  | (J, i) :: rest =>
    if isBad avoid J then ieLoop m f rest avoid pos neg
    else
      match f J with
      | .error e => .error e
      | .ok p =>
        ieLoop m f (rest ++ ieNext m J i) (if p = 0 then avoid ++ [J] else avoid)
          (if J.length % 2 = 1 then pos ++ [p] else pos) (if J.length % 2 = 1 then neg else neg ++ [p])
termination_by ieMeasure m stack
decreasing_by
  · simp [ieMeasure]
  · have := ieMeasure_next m J i
    simp only [ieMeasure, List.map_append, List.sum_append, List.map_cons, List.sum_cons] at this ⊢
    omega

/-- spe.py 479-509 `ProductSPE.logprob_mem` with `m` clauses. -/
noncomputable def inclExcl (m : ℕ) (f : List ℕ → Res ℝ) : Res ℝ := do
  let pn ← ieLoop m f ((List.range m).map (fun i => ([i], i))) [] [] []
  if pn.1.sum = 0 ∨ pn.2 = [] then .ok pn.1.sum
  else pdiff pn.1.sum pn.2.sum

/-- `event_factor[j] for j in J`; the indexes are in range. -/
def pickClauses (F : Factor) (J : List ℕ) : List (Clause String) := J.filterMap (fun j => F[j]?)

/-- Weighted sum of probabilities (spe.py 255). -/
noncomputable def mixSum (ws ps : List ℝ) : ℝ := (List.zipWith (· * ·) ws ps).sum

/-- `[spe.logprob_mem(event_factor, memo) for spe in self.children]` (spe.py 254, 260). -/
def callAll {α β : Type} (fs : List (α → Res β)) (x : α) : Res (List β) := fs.mapM (fun f => f x)

mutual
/-- `logprob_mem`: spe.py 653-661 (leaves), 253-256 (sums), 479-509 (products). -/
noncomputable def Spe.probMem (c : Ctx) (L : Lib) (n : ℕ) : Spe → Factor → Res ℝ
  | .real k sym d supp cond env, F => do
    let e ← factorEvent c F
    leafProb c L n (.real k sym d supp cond env) e
  | .atomic sym v env, F => do
    let e ← factorEvent c F
    leafProb c L n (.atomic sym v env) e
  | .nominal sym dist, F => do
    let e ← factorEvent c F
    leafProb c L n (.nominal sym dist) e
  | .sum cs ws, F => do
    let ps ← callAll (Spe.probMemL c L n cs) F
    .ok (mixSum ws ps)
  | .prod cs, F =>
    inclExcl F.length (fun J => conjProb c (Spe.symbolsL cs) (Spe.probMemL c L n cs) (pickClauses F J))
/-- The methods `logprob_mem` of the children. -/
noncomputable def Spe.probMemL (c : Ctx) (L : Lib) (n : ℕ) : List Spe → List (Factor → Res ℝ)
  | [] => []
  | s :: ss => Spe.probMem c L n s :: Spe.probMemL c L n ss
end

/-! ## Simplification of sums -/

mutual
/-- The `__eq__` methods: spe.py 828-836 (real leaves), 960-963 (atomic: the environment is not compared),
1030-1033 (nominal: equality of dictionaries), 291-294 (sums), 586-588 (products). -/
noncomputable def Spe.eqPy : Spe → Spe → Bool
  | .real k sym d supp cond env, .real k' sym' d' supp' cond' env' =>
    decide (k = k' ∧ sym = sym' ∧ d.key = d'.key ∧ supp = supp' ∧ cond = cond' ∧ env = env')
  | .atomic sym v _, .atomic sym' v' _ => decide (sym = sym' ∧ v = v')
  | .nominal sym dist, .nominal sym' dist' =>
    decide (sym = sym' ∧ dist.length = dist'.length ∧ ∀ p ∈ dist, dist'.lookup p.1 = some p.2)
  | .sum cs ws, .sum cs' ws' => Spe.eqPyL cs cs' && decide (ws = ws')
  | .prod cs, .prod cs' => Spe.eqPyL cs cs'
  | _, _ => false
/-- Equality of tuples of children. -/
noncomputable def Spe.eqPyL : List Spe → List Spe → Bool
  | [], [] => true
  | s :: ss, t :: ts => Spe.eqPy s t && Spe.eqPyL ss ts
  | _, _ => false
end

mutual
/-- Whether `hash` of an SPE returns: spe.py 823-827 (real leaves, with the environment), 957-959 (atomic leaves, without), 1027-1029 (nominal
leaves), 295-297 (sums), 589-591 (products).  (The parameters of scipy distributions are taken to be numbers.) -/
def Spe.hashable : Spe → Bool
  | .real _ _ _ _ _ env => env.all (fun p => p.2.hashable)
  | .atomic _ _ _ => true
  | .nominal _ _ => true
  | .sum cs _ => Spe.hashableL cs
  | .prod cs => Spe.hashableL cs
/-- `hash` of a tuple of children. -/
def Spe.hashableL : List Spe → Bool
  | [] => true
  | s :: ss => s.hashable && Spe.hashableL ss
end

/-- spe.py 395-399: the pairs `(i, j)` of equal children. -/
noncomputable def overlapPairs (as bs : List Spe) : List (ℕ × ℕ) :=
  bs.zipIdx.flatMap (fun q => as.zipIdx.filterMap (fun p => if Spe.eqPy p.1 q.1 then some (p.2, q.2) else none))

/-- The elements whose index is, or is not, in `js` (spe.py 409-411). -/
def keepIdx (l : List Spe) (js : List ℕ) (keep : Bool) : List Spe :=
  (l.zipIdx.filter (fun p => decide (p.2 ∈ js) == keep)).map Prod.fst

/-- spe.py 391-416 `spe_simplify_sum_product_helper`. -/
noncomputable def simplifyStep (state : List Spe × ℝ) (bs : List Spe) (wb : ℝ) : Res (List Spe × ℝ) := do
  let ws := pnorm [state.2, wb]
  let ov := overlapPairs state.1 bs
  if ov.length = 0 then do
    let pa ← listToProd state.1
    let pb ← listToProd bs
    let s ← mkSum [pa, pb] ws
    .ok ([s], state.2 + wb)
  else if ov.length = state.1.length then .ok (state.1, state.2 + wb)
  else do
    let pa ← listToProd (keepIdx state.1 (ov.map Prod.fst) false)
    let pb ← listToProd (keepIdx bs (ov.map Prod.snd) false)
    let s ← mkSum [pa, pb] ws
    .ok (s :: keepIdx state.1 (ov.map Prod.fst) true, state.2 + wb)

/-- The children of a product. -/
def Spe.prod? : Spe → Option (List Spe)
  | .prod cs => some cs
  | _ => none

/-- spe.py 382-389: the reduction over the children of the products. -/
noncomputable def simplifyProducts (css : List (List Spe)) (ws : List ℝ) : Res Spe :=
  match css, ws with
  | cs :: css, w :: ws => do
    let r ← (css.zip ws).foldlM (fun st q => simplifyStep st q.1 q.2) (cs, w)
    if r.2 = 1 then listToProd r.1 else .error .assertion
  | _, _ => .error .index

/-- spe.py 377-389 `spe_simplify_sum_product`. -/
noncomputable def simplifySumProduct (cs : List Spe) (ws : List ℝ) : Res Spe :=
  match cs.mapM Spe.prod? with
  | none => .ok (.sum cs ws)
  | some css => simplifyProducts css ws

/-- `isinstance(spe, LeafSPE)`. -/
def Spe.isLeaf (s : Spe) : Bool := s.leafEnv.isSome

/-- sym_util.py 45-52 `partition_list_blocks`, given the hashes of the values: the indexes with the same hash,
in order of first occurrence. -/
def partitionBlocks (hs : List ℤ) : List (List ℕ) :=
  let firsts := (hs.zipIdx.filter (fun p => !decide (p.1 ∈ hs.take p.2))).map Prod.fst
  firsts.map (fun h => (hs.zipIdx.filter (fun p => decide (p.1 = h))).map Prod.snd)

/-- spe.py 366-375 `spe_simplify_sum_leaf`; `hash` is Python's `hash`. -/
noncomputable def simplifySumLeaf (hash : Spe → ℤ) (cs : List Spe) (ws : List ℝ) : Res Spe :=
  if cs.all Spe.isLeaf then
    let P := partitionBlocks (cs.map hash)
    if ¬ cs.all Spe.hashable then .error .type
    else if P.length = cs.length then .ok (.sum cs ws)
    else if P.length = 1 then .ok (cs.headD default)
    else mkSum (P.filterMap (fun b => b.head?.bind (fun i => cs[i]?))) (P.map (fun b => (b.filterMap (fun i => ws[i]?)).sum))
  else .error .assertion

/-- spe.py 359-364 `spe_simplify_sum`. -/
noncomputable def simplifySum (hash : Spe → ℤ) : Spe → Res Spe
  | .sum [] _ => .error .index
  | .sum (s :: cs) ws =>
    if s.isLeaf then simplifySumLeaf hash (s :: cs) ws
    else
      match s with
      | .prod _ => simplifySumProduct (s :: cs) ws
      | _ => .error .assertion
  | _ => .error .attribute

/-! ## Conditioning -/

/-- spe.py 551-561 `condition_clause`; `fs` are the methods `condition_mem` of the children.  (The dictionary at 558 is
in the iteration order of a set; here it keeps the order of the clause.) -/
noncomputable def condClause (cs : List Spe) (fs : List (Factor → Res Spe)) (m : Clause String) : Res (List Spe) :=
  (cs.zip fs).mapM (fun p =>
    let sub := m.filter (fun q => decide (q.1 ∈ p.1.symbols))
    if sub = [] then .ok p.1 else p.2 [sub])

/-- spe.py 519-527: the mixture of the conditioned products. -/
noncomputable def condMix (hash : Spe → ℤ) (ps : List ℝ) (products : List Spe) : Res Spe :=
  match products with
  | [s] => .ok s
  | ss => do
    let s ← mkSum ss (pnorm ps)
    simplifySum hash s

/-- spe.py 512-527 `ProductSPE.condition_mem`; `p` is `self.logprob_mem(event_factor)`. -/
noncomputable def condProd (c : Ctx) (hash : Spe → ℤ) (cs : List Spe) (pf : List (Factor → Res ℝ)) (fs : List (Factor → Res Spe))
    (p : Res ℝ) (F : Factor) : Res Spe := do
  let ps ← F.mapM (fun m => conjProb c (Spe.symbolsL cs) pf [m])
  let q ← p
  if ps.sum ≠ q then .error .assertion
  else
    let good := (F.zip ps).filter (fun r => r.2 ≠ 0)
    if good = [] then .error .value
    else do
      let childrens ← good.mapM (fun r => condClause cs fs r.1)
      let products ← childrens.mapM mkProd
      condMix hash (good.map Prod.snd) products

/-- spe.py 259-267 `SumSPE.condition_mem`: `ps` are the probabilities of the children. -/
noncomputable def condSum (ws : List ℝ) (ps : List ℝ) (fs : List (Factor → Res Spe)) (F : Factor) : Res Spe :=
  let good := ((ws.zip ps).zip fs).filter (fun r => r.1.2 ≠ 0)
  if good = [] then .error .value
  else do
    let children ← good.mapM (fun r => r.2 F)
    match children with
    | [s] => .ok s
    | cs => mkSum cs (pnorm (good.map (fun r => r.1.2 * r.1.1)))

mutual
/-- `condition_mem`: spe.py 662-670 (leaves), 259-267 (sums), 512-527 (products). -/
noncomputable def Spe.condMem (c : Ctx) (L : Lib) (hash : Spe → ℤ) (n : ℕ) : Spe → Factor → Res Spe
  | .real k sym d supp cond env, F => do
    let e ← factorEvent c F
    leafCond c L n (.real k sym d supp cond env) e
  | .atomic sym v env, F => do
    let e ← factorEvent c F
    leafCond c L n (.atomic sym v env) e
  | .nominal sym dist, F => do
    let e ← factorEvent c F
    leafCond c L n (.nominal sym dist) e
  | .sum cs ws, F => do
    let ps ← callAll (Spe.probMemL c L n cs) F
    condSum ws ps (Spe.condMemL c L hash n cs) F
  | .prod cs, F =>
    condProd c hash cs (Spe.probMemL c L n cs) (Spe.condMemL c L hash n cs) (Spe.probMem c L n (.prod cs) F) F
/-- The methods `condition_mem` of the children. -/
noncomputable def Spe.condMemL (c : Ctx) (L : Lib) (hash : Spe → ℤ) (n : ℕ) : List Spe → List (Factor → Res Spe)
  | [] => []
  | s :: ss => Spe.condMem c L hash n s :: Spe.condMemL c L hash n ss
end

/-! ## Public methods -/

/-- `logprob`: spe.py 159-166 (sums and products), 625-634 (leaves). -/
noncomputable def Spe.prob (c : Ctx) (L : Lib) (n : ℕ) (s : Spe) (e : Ev) : Res ℝ :=
  if s.isLeaf then leafProb c L n s e
  else do
    let o ← dnfNormalize c n e
    match o with
    | none => .ok 0
    | some d => do
      let F ← dnfFactor1 c d
      s.probMem c L n F

/-- spe.py 173-179: drop the clauses of probability zero. -/
noncomputable def dropNull (c : Ctx) (L : Lib) (n : ℕ) (s : Spe) : Ev → Res Ev
  | .or es => do
    let Fs ← es.mapM (dnfFactor1 c)
    let ps ← Fs.mapM (s.probMem c L n)
    let good := (es.zip ps).filter (fun r => r.2 ≠ 0)
    if good = [] then .error .value else .ok (.or (good.map Prod.fst))
  | e => .ok e

/-- `condition`: spe.py 167-182 (sums and products), 635-644 (leaves). -/
noncomputable def Spe.condition (c : Ctx) (L : Lib) (hash : Spe → ℤ) (n : ℕ) (s : Spe) (e : Ev) : Res Spe :=
  if s.isLeaf then leafCond c L n s e
  else do
    let o ← dnfNormalize c n e
    match o with
    | none => .error .value
    | some d => do
      let d' ← dropNull c L n s d
      let g ← toDisjoint c n n d'
      let F ← dnfFactor1 c g
      s.condMem c L hash n F

end Sppl
