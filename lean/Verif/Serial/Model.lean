import Verif.Spe.Model

/-!
# Model of `/repo/src/compilers/spe_to_dict.py`, and of the `__repr__` methods it uses

Texts are modelled by their syntax trees (`Py`): `repr` builds the tree of the text that the Python method builds, `eval`
evaluates it by calling the constructors of the classes.  Parsing itself is not modelled, except that an argument list with
an empty argument (`f(, b=True)`) is a `SyntaxError` (modelled as `Err.value`).
-/

namespace Sppl
open Classical

mutual
/-- Python expressions that occur in the output of the `__repr__` methods. -/
inductive Py
  | num (text : String)
  | str (s : String)
  | bool (b : Bool)
  | none
  | name (s : String)
  | call (f : String) (args : Args)
  | seq (items : Args)
/-- Arguments of a call, or items of a tuple or list.  `blank` is an empty argument, as in `f(, x)`. -/
inductive Args
  | nil
  | blank (rest : Args)
  | pos (e : Py) (rest : Args)
  | kw (key : String) (e : Py) (rest : Args)
end

/-- Values of Python expressions.  `seq` is a tuple or a list. -/
inductive PyVal
  | num (x : EReal)
  | str (s : String)
  | bool (b : Bool)
  | none
  | tr (t : Tr)
  | ev (e : Ev)
  | set (s : SSet EReal)
  | seq (l : List PyVal)

/-- The services outside the modelled code: `repr` and `eval` on numbers (which need not be inverse: a sympy `Rational`
is evaluated to a float), `float` on numbers, the iteration order of frozensets of strings, and the names that
`scipy.stats` defines. -/
structure Host where
  repr : EReal → String
  eval : String → Option EReal
  float : ℝ → ℝ
  iter : Finset String → List String
  iter_set : ∀ s, (iter s).toFinset = s
  stats : String → Bool

/-! ## `repr` -/

/-- `', '.join(...)`: the arguments, or an empty text if there are none; followed by `rest`. -/
def joinArgs (rest : Args) : List Py → Args
  | [] => .blank rest
  | l => l.foldr .pos rest

/-- The items of a tuple or list. -/
def seqArgs (l : List Py) : Args := l.foldr .pos .nil

/-- sets.py 262-264 `Interval.__repr__`. -/
def Ivl.repr (H : Host) (i : Ivl EReal) : Py :=
  .call "Interval" (.pos (.num (H.repr i.a)) (.pos (.num (H.repr i.b))
    (.kw "left_open" (.bool i.lo) (.kw "right_open" (.bool i.ro) .nil))))

/-- sets.py 167-168 `FiniteReal.__repr__`, 41-42 `EmptySet`. -/
noncomputable def finRepr (c : Ctx) (H : Host) : Option (Finset EReal) → Py
  | none => .name "EmptySet"
  | some s => .call "FiniteReal" (joinArgs .nil ((c.iter s).map (fun x => .num (H.repr x))))

/-- `repr` of the attribute `b`. -/
def optBoolRepr : Option Bool → Py
  | none => .none
  | some b => .bool b

/-- sets.py 97-99 `FiniteNominal.__repr__`, 41-42 `EmptySet`. -/
def nomRepr (H : Host) : Option Nom → Py
  | none => .name "EmptySet"
  | some n => .call "FiniteNominal" (joinArgs (.kw "b" (optBoolRepr n.b) .nil) ((H.iter n.vals).map .str))

mutual
/-- The `__repr__` methods of transforms: transforms.py 389, 433, 474, 515, 565, 621, 678, 748. -/
noncomputable def Tr.repr (c : Ctx) (H : Host) : Tr → Py
  | .id s => .call "Identity" (.pos (.str s) .nil)
  | .radical t n => .call "Radical" (.pos (t.repr c H) (.kw "degree" (.num (H.repr ((n : ℝ) : EReal))) .nil))
  | .exp t b => .call "Exponential" (.pos (t.repr c H) (.kw "base" (.num (H.repr (b : EReal))) .nil))
  | .log t b => .call "Logarithm" (.pos (t.repr c H) (.kw "base" (.num (H.repr (b : EReal))) .nil))
  | .abs t => .call "Abs" (.pos (t.repr c H) .nil)
  | .recip t => .call "Reciprocal" (.pos (t.repr c H) .nil)
  | .poly t cs => .call "Poly" (.pos (t.repr c H)
      (.kw "coeffs" (.seq (seqArgs (cs.map (fun (x : ℝ) => Py.num (H.repr (x : EReal)))))) .nil))
  | .pw ts es _ => .call "Piecewise" (.pos (.seq (Tr.reprL c H ts)) (.kw "events" (.seq (Ev.reprL c H es)) .nil))
/-- The items of `repr(self.subexprs)`, transforms.py 750. -/
noncomputable def Tr.reprL (c : Ctx) (H : Host) : List Tr → Args
  | [] => .nil
  | t :: ts => .pos (t.repr c H) (Tr.reprL c H ts)
/-- The `__repr__` methods of events: transforms.py 982, 1015, 1068, 1134, 1187. -/
noncomputable def Ev.repr (c : Ctx) (H : Host) : Ev → Py
  | .ivl t i => .call "EventInterval" (.pos (t.repr c H) (.kw "values" (i.repr H) .nil))
  | .fin t v => .call "EventFiniteReal" (.pos (t.repr c H) (.kw "values" (finRepr c H v) .nil))
  | .nom t v => .call "EventFiniteNominal" (.pos (t.repr c H) (.kw "values" (nomRepr H v) .nil))
  | .or es => .call "EventOr" (.pos (.seq (Ev.reprL c H es)) .nil)
  | .and es => .call "EventAnd" (.pos (.seq (Ev.reprL c H es)) .nil)
/-- The items of `repr(self.subexprs)` (transforms.py 1135, 1188) and `repr(self.events)` (750). -/
noncomputable def Ev.reprL (c : Ctx) (H : Host) : List Ev → Args
  | [] => .nil
  | e :: es => .pos (e.repr c H) (Ev.reprL c H es)
end

/-! ## `eval` -/

/-- Python's binding of arguments to the parameters of a function; `none` stands for an omitted argument. -/
def bindArgs (params : List String) (pos : List PyVal) (kws : List (String × PyVal)) : Res (List (Option PyVal)) :=
  if params.length < pos.length then .error .type
  else if kws.all (fun k => decide (k.1 ∈ params.drop pos.length)) then
    .ok (pos.map some ++ (params.drop pos.length).map (fun p => kws.lookup p))
  else .error .type

/-- transforms.py 1225-1231 `make_subexpr`.  (An event is a transform too; expressions over events are not modelled.) -/
def PyVal.subexpr : PyVal → Res Tr
  | .tr t => .ok t
  | _ => .error .type

/-- transforms.py 1233-1237 `make_event`, and 1079 for compound events. -/
def PyVal.event : PyVal → Res Ev
  | .ev e => .ok e
  | _ => .error .type

/-- A number as an argument of a constructor of real expressions; infinities are not modelled there. -/
noncomputable def PyVal.real : PyVal → Res ℝ
  | .num x => if x = ⊤ ∨ x = ⊥ then .error .notImplemented else .ok x.toReal
  | _ => .error .type

/-- A number. -/
def PyVal.ereal : PyVal → Res EReal
  | .num x => .ok x
  | _ => .error .type

/-- A string. -/
def PyVal.string : PyVal → Res String
  | .str s => .ok s
  | _ => .error .type

/-- The items of a tuple or list. -/
def PyVal.items : PyVal → Res (List PyVal)
  | .seq l => .ok l
  | _ => .error .type

/-- A flag that may be `None`, sets.py 180-181. -/
def flagOf : Option PyVal → Res Bool
  | none => .ok false
  | some .none => .ok false
  | some (.bool b) => .ok b
  | _ => .error .type

/-- A radical degree: transforms.py 404 asserts that it is not zero; the model has natural degrees only. -/
noncomputable def toDegree (x : EReal) : Res ℕ :=
  if x = 0 then .error .assertion else if h : ∃ n : ℕ, x = ((n : ℝ) : EReal) then .ok h.choose else .error .notImplemented

/-- The constructor calls: `Identity` (transforms.py 358-363), `Radical` (404-407), `Exponential` (443-446), `Logarithm`
(486-489), `Abs` (532-533), `Reciprocal` (576-577), `Poly` (630-635), `Piecewise` (704-708), `EventInterval` (913-916),
`EventFiniteReal` (1001-1003), `EventFiniteNominal` (1031-1036), `EventOr` and `EventAnd` (1078-1081), `Interval` (sets.py
177-184), `FiniteReal` (108-110), `FiniteNominal` (47-50).  `n` bounds the depth of the recursion of `solve` in
`Piecewise`. -/
noncomputable def callPy (c : Ctx) (n : ℕ) (f : String) (pos : List PyVal) (kws : List (String × PyVal)) : Res PyVal :=
  if f = "Identity" then do
    match ← bindArgs ["token"] pos kws with
    | [some (.str s)] => .ok (.tr (.id s))
    | [some _] => .error .assertion
    | _ => .error .type
  else if f = "Radical" then do
    match ← bindArgs ["subexpr", "degree"] pos kws with
    | [some t, some x] => do
      let x ← x.ereal
      let d ← toDegree x
      let t ← t.subexpr
      .ok (.tr (.radical t d))
    | _ => .error .type
  else if f = "Exponential" then do
    match ← bindArgs ["subexpr", "base"] pos kws with
    | [some t, some x] => do
      let b ← x.real
      if 0 < b then do
        let t ← t.subexpr
        .ok (.tr (.exp t b))
      else .error .assertion
    | _ => .error .type
  else if f = "Logarithm" then do
    match ← bindArgs ["subexpr", "base"] pos kws with
    | [some t, some x] => do
      let b ← x.real
      if 1 < b then do
        let t ← t.subexpr
        .ok (.tr (.log t b))
      else .error .assertion
    | _ => .error .type
  else if f = "Abs" then do
    match ← bindArgs ["subexpr"] pos kws with
    | [some t] => do
      let t ← t.subexpr
      .ok (.tr (.abs t))
    | _ => .error .type
  else if f = "Reciprocal" then do
    match ← bindArgs ["subexpr"] pos kws with
    | [some t] => do
      let t ← t.subexpr
      .ok (.tr (.recip t))
    | _ => .error .type
  else if f = "Poly" then do
    match ← bindArgs ["subexpr", "coeffs"] pos kws with
    | [some t, some cs] => do
      let cs ← cs.items
      if 1 < cs.length then do
        let t ← t.subexpr
        let cs ← cs.mapM PyVal.real
        .ok (.tr (.poly t cs))
      else .error .assertion
    | _ => .error .type
  else if f = "Piecewise" then do
    match ← bindArgs ["subexprs", "events"] pos kws with
    | [some ts, some es] => do
      let ts ← ts.items
      let es ← es.items
      let ts ← ts.mapM PyVal.subexpr
      let es ← es.mapM PyVal.event
      let t ← mkPiecewise c n ts es
      .ok (.tr t)
    | _ => .error .type
  else if f = "EventInterval" then do
    match ← bindArgs ["subexpr", "values"] pos kws with
    | [some t, some v] =>
      match v with
      | .set (.pc (.ivl i)) => do
        let t ← t.subexpr
        .ok (.ev (.ivl t i))
      | _ => .error .assertion
    | _ => .error .type
  else if f = "EventFiniteReal" then do
    match ← bindArgs ["subexpr", "values"] pos kws with
    | [some t, some v] => do
      let t ← t.subexpr
      match v with
      | .set .empty => .ok (.ev (.fin t none))
      | .set (.pc (.fin s)) => if s = ∅ then .error .assertion else .ok (.ev (.fin t (some s)))
      | _ => .error .type
    | _ => .error .type
  else if f = "EventFiniteNominal" then do
    match ← bindArgs ["subexpr", "values"] pos kws with
    | [some t, some v] =>
      match v with
      | .set .empty => do
        let t ← t.subexpr
        .ok (.ev (.nom t none))
      | .set (.pc (.nom m)) => do
        let t ← t.subexpr
        .ok (.ev (.nom t (some m)))
      | _ => .error .assertion
    | _ => .error .type
  else if f = "EventOr" then do
    match ← bindArgs ["subexprs"] pos kws with
    | [some es] => do
      let es ← es.items
      let es ← es.mapM PyVal.event
      if es = [] then .error .type else .ok (.ev (.or es))
    | _ => .error .type
  else if f = "EventAnd" then do
    match ← bindArgs ["subexprs"] pos kws with
    | [some es] => do
      let es ← es.items
      let es ← es.mapM PyVal.event
      if es = [] then .error .type else .ok (.ev (.and es))
    | _ => .error .type
  else if f = "Interval" then do
    match ← bindArgs ["a", "b", "left_open", "right_open"] pos kws with
    | [some a, some b, lo, ro] => do
      let a ← a.ereal
      let b ← b.ereal
      let lo ← flagOf lo
      let ro ← flagOf ro
      let i ← mkIvl a b lo ro
      .ok (.set (.pc (.ivl i)))
    | _ => .error .type
  else if f = "FiniteReal" then
    if kws = [] then do
      let xs ← pos.mapM PyVal.ereal
      if xs = [] then .error .assertion else .ok (.set (.pc (.fin xs.toFinset)))
    else .error .type
  else if f = "FiniteNominal" then do
    let xs ← pos.mapM PyVal.string
    match kws with
    | [] => do
      let m ← mkNom xs.toFinset none
      .ok (.set (.pc (.nom m)))
    | [("b", .none)] => do
      let m ← mkNom xs.toFinset none
      .ok (.set (.pc (.nom m)))
    | [("b", .bool b)] => do
      let m ← mkNom xs.toFinset (some b)
      .ok (.set (.pc (.nom m)))
    | _ => .error .type
  else .error .key

mutual
/-- `eval(text)`, spe_to_dict.py 40, 71, 78, with the names of its lines 6-34. -/
noncomputable def Py.eval (c : Ctx) (H : Host) (n : ℕ) : Py → Res PyVal
  | .num s =>
    match H.eval s with
    | .some x => .ok (.num x)
    | .none => .error .value
  | .str s => .ok (.str s)
  | .bool b => .ok (.bool b)
  | .none => .ok .none
  | .name s => if s = "EmptySet" then .ok (.set .empty) else .error .key
  | .call f (.blank .nil) => callPy c n f [] []
  | .call f args => do
    let a ← args.eval c H n
    callPy c n f a.1 a.2
  | .seq items => do
    let a ← items.eval c H n
    .ok (.seq a.1)
/-- The values of arguments: positional ones and keyword ones. -/
noncomputable def Args.eval (c : Ctx) (H : Host) (n : ℕ) : Args → Res (List PyVal × List (String × PyVal))
  | .nil => .ok ([], [])
  | .blank _ => .error .value
  | .pos e rest => do
    let v ← e.eval c H n
    let a ← rest.eval c H n
    .ok (v :: a.1, a.2)
  | .kw key e rest => do
    let v ← e.eval c H n
    let a ← rest.eval c H n
    .ok (a.1, (key, v) :: a.2)
end

/-! ## Dictionaries -/

mutual
/-- JSON-friendly values.  `src` is a string with a Python expression, `env` a dictionary from such strings to such
strings. -/
inductive Js
  | null
  | bool (b : Bool)
  | real (x : ℝ)
  | int (z : ℤ)
  | str (s : String)
  | src (p : Py)
  | env (l : List (Py × Py))
  | arr (l : Jsl)
  | obj (o : Jso)
/-- Lists of JSON-friendly values. -/
inductive Jsl
  | nil
  | cons (j : Js) (l : Jsl)
/-- Dictionaries with string keys. -/
inductive Jso
  | nil
  | cons (key : String) (j : Js) (o : Jso)
end

/-- The list of JSON values. -/
def jsl : List Js → Jsl
  | [] => .nil
  | j :: l => .cons j (jsl l)

/-- The list of items. -/
def Jsl.list : Jsl → List Js
  | .nil => []
  | .cons j l => j :: l.list

/-- A dictionary display `{k: v, ...}`. -/
def jso : List (String × Js) → Jso
  | [] => .nil
  | (k, j) :: l => .cons k j (jso l)

/-- The items of a dictionary. -/
def Jso.list : Jso → List (String × Js)
  | .nil => []
  | .cons k j o => (k, j) :: o.list

/-- `metadata[key]`. -/
def Jso.get (o : Jso) (key : String) : Res Js :=
  match o.list.lookup key with
  | some j => .ok j
  | none => .error .key

/-- A number. -/
def Js.toReal : Js → Res ℝ
  | .real x => .ok x
  | _ => .error .type

/-- A string. -/
def Js.toStr : Js → Res String
  | .str s => .ok s
  | _ => .error .type

/-- A flag. -/
def Js.toBool : Js → Res Bool
  | .bool s => .ok s
  | _ => .error .type

/-- The items of a list. -/
def Js.toArr : Js → Res (List Js)
  | .arr l => .ok l.list
  | _ => .error .type

/-- The items of a dictionary. -/
def Js.toObj : Js → Res Jso
  | .obj o => .ok o
  | _ => .error .type

/-! ## `spe_to_dict` -/

/-- spe_to_dict.py 42-45 `env_to_dict`. -/
noncomputable def envToDict (c : Ctx) (H : Host) (env : Env) : Js :=
  if env.length = 1 then .null else .env (env.map (fun p => ((Tr.id p.1).repr c H, p.2.repr c H)))

/-- spe_to_dict.py 51-56 `scipy_dist_to_dict`. -/
def distToDict (d : Dist) : Js :=
  .obj (jso [("name", .str d.name), ("args", .arr (jsl (d.args.map .real))),
    ("kwds", .obj (jso (d.kwds.map (fun p => (p.1, .real p.2)))))])

/-- The value of the key `class`, spe_to_dict.py 112, 121. -/
def Kind.className : Kind → String
  | .cont => "ContinuousLeaf"
  | .disc => "DiscreteLeaf"

mutual
/-- spe_to_dict.py 92-139 `spe_to_dict`.  (`str(x)` on a string is the string.) -/
noncomputable def Spe.toDict (c : Ctx) (H : Host) : Spe → Js
  | .nominal X dist => .obj (jso [("class", .str "NominalLeaf"), ("symbol", .str X),
      ("dist", .arr (jsl (dist.map (fun p => .arr (jsl [.str p.1, .arr (jsl [.int p.2.num, .int p.2.den])]))))),
      ("env", envToDict c H [(X, .id X)])])
  | .atomic X v env => .obj (jso [("class", .str "AtomicLeaf"), ("symbol", .str X), ("value", .real v),
      ("env", envToDict c H env)])
  | .real k X d supp cond env => .obj (jso [("class", .str k.className), ("symbol", .str X), ("dist", distToDict d),
      ("support", .src (supp.repr H)), ("conditioned", .bool cond), ("env", envToDict c H env)])
  | .sum cs ws => .obj (jso [("class", .str "SumSPE"), ("children", .arr (Spe.toDictL c H cs)),
      ("weights", .arr (jsl (ws.map .real)))])
  | .prod cs => .obj (jso [("class", .str "ProductSPE"), ("children", .arr (Spe.toDictL c H cs))])
/-- `[spe_to_dict(c) for c in spe.children]`, spe_to_dict.py 131, 137. -/
noncomputable def Spe.toDictL (c : Ctx) (H : Host) : List Spe → Jsl
  | [] => .nil
  | s :: ss => .cons (s.toDict c H) (Spe.toDictL c H ss)
end

/-! ## `spe_from_dict` -/

/-- `d[k] = v` on an insertion-ordered dictionary. -/
def dictSet {α : Type} (d : List (String × α)) (k : String) (v : α) : List (String × α) :=
  if k ∈ d.map Prod.fst then d.map (fun p => if p.1 = k then (k, v) else p) else d ++ [(k, v)]

/-- `{k: v for k, v in l}`. -/
def dictOf {α : Type} (l : List (String × α)) : List (String × α) := l.foldl (fun d p => dictSet d p.1 p.2) []

/-- A variable with its definition.  Keys that are not `Identity` objects are not modelled. -/
noncomputable def evalEnvEntry (c : Ctx) (H : Host) (n : ℕ) (p : Py × Py) : Res (String × Tr) := do
  let k ← p.1.eval c H n
  let v ← p.2.eval c H n
  match k, v with
  | .tr (.id s), .tr t => .ok (s, t)
  | _, _ => .error .type

/-- spe_to_dict.py 36-40 `env_from_dict`, with the default of spe.py 708, 938 (`env or OrderedDict(...)`). -/
noncomputable def envFromDict (c : Ctx) (H : Host) (n : ℕ) (X : String) : Js → Res Env
  | .null => .ok [(X, .id X)]
  | .env l => do
    let es ← l.mapM (evalEnvEntry c H n)
    .ok (if es = [] then [(X, .id X)] else dictOf es)
  | _ => .error .attribute

/-- spe_to_dict.py 47-49 `scipy_dist_from_dict`. -/
def distFromDict (H : Host) (j : Js) : Res Dist := do
  let o ← j.toObj
  let name ← o.get "name"
  let name ← name.toStr
  if H.stats name then do
    let args ← o.get "args"
    let args ← args.toArr
    let args ← args.mapM Js.toReal
    let kwds ← o.get "kwds"
    let kwds ← kwds.toObj
    let kwds ← kwds.list.mapM (fun p => do
      let v ← p.2.toReal
      .ok (p.1, v))
    .ok ⟨name, args, kwds, []⟩
  else .error .attribute

/-- spe_to_dict.py 61: an item `x: Fraction(w[0], w[1])`; `ZeroDivisionError` is modelled as `ValueError`. -/
def outcomeFromDict : Js → Res (String × ℚ)
  | .arr (.cons (.str x) (.cons (.arr (.cons (.int a) (.cons (.int b) .nil))) .nil)) =>
    if b = 0 then .error .value else .ok (x, (a : ℚ) / b)
  | _ => .error .type

/-- spe_to_dict.py 68-81: the branches for `ContinuousLeaf` and `DiscreteLeaf`. -/
noncomputable def realFromDict (c : Ctx) (L : Lib) (H : Host) (n : ℕ) (k : Kind) (o : Jso) : Res Spe := do
  let X ← o.get "symbol"
  let X ← X.toStr
  let d ← o.get "dist"
  let d ← distFromDict H d
  let s ← o.get "support"
  match s with
  | .src p => do
    let s ← p.eval c H n
    let cond ← o.get "conditioned"
    let cond ← cond.toBool
    let env ← o.get "env"
    let env ← envFromDict c H n X env
    match s with
    | .set (.pc (.ivl supp)) => mkReal L ⟨k, d, supp, cond⟩ X env
    | _ => .error .assertion
  | _ => .error .type

mutual
/-- spe_to_dict.py 58-90 `spe_from_dict`. -/
noncomputable def fromDict (c : Ctx) (L : Lib) (H : Host) (n : ℕ) : Js → Res Spe
  | .obj o => do
    let cls ← o.get "class"
    let cls ← cls.toStr
    if cls = "NominalLeaf" then do
      let X ← o.get "symbol"
      let X ← X.toStr
      let dist ← o.get "dist"
      let dist ← dist.toArr
      let dist ← dist.mapM outcomeFromDict
      mkNominal X (dictOf dist)
    else if cls = "AtomicLeaf" then do
      let X ← o.get "symbol"
      let X ← X.toStr
      let v ← o.get "value"
      let v ← v.toReal
      let env ← o.get "env"
      let env ← envFromDict c H n X env
      .ok (.atomic X (H.float v) env)
    else if cls = "ContinuousLeaf" then realFromDict c L H n .cont o
    else if cls = "DiscreteLeaf" then realFromDict c L H n .disc o
    else if cls = "SumSPE" then do
      let cs ← childrenFromDict c L H n o
      let ws ← o.get "weights"
      let ws ← ws.toArr
      let ws ← ws.mapM Js.toReal
      mkSum cs ws
    else if cls = "ProductSPE" then do
      let cs ← childrenFromDict c L H n o
      mkProd cs
    else .error .assertion
  | _ => .error .type
/-- `[spe_from_dict(c) for c in metadata['children']]`, spe_to_dict.py 83, 87. -/
noncomputable def childrenFromDict (c : Ctx) (L : Lib) (H : Host) (n : ℕ) : Jso → Res (List Spe)
  | .nil => .error .key
  | .cons key j o => if key = "children" then listFromDict c L H n j else childrenFromDict c L H n o
/-- See `childrenFromDict`. -/
noncomputable def listFromDict (c : Ctx) (L : Lib) (H : Host) (n : ℕ) : Js → Res (List Spe)
  | .arr l => itemsFromDict c L H n l
  | _ => .error .type
/-- See `childrenFromDict`. -/
noncomputable def itemsFromDict (c : Ctx) (L : Lib) (H : Host) (n : ℕ) : Jsl → Res (List Spe)
  | .nil => .ok []
  | .cons j l => do
    let s ← fromDict c L H n j
    let ss ← itemsFromDict c L H n l
    .ok (s :: ss)
end

end Sppl
