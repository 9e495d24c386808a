import Verif.Events.Model

/-!
# Model of the operators of `Transform` (transforms.py 91-340, 930-969), of `substitute` and of `evaluate`

Constants are real numbers; floating-point rounding is not modelled.
-/

namespace Sppl
open Classical

/-! ## Arithmetic -/

/-- transforms.py 1239-1242 `polyify`: the subexpression and the coefficients. -/
def polyify : Tr → Tr × List ℝ
  | .poly s cs => (s, cs)
  | t => (t, [0, 1])

/-- transforms.py 630-635 `Poly.__init__`. -/
def mkPoly (t : Tr) (cs : List ℝ) : Res Tr := if 1 < cs.length then .ok (.poly t cs) else .error .assertion

/-- transforms.py 91-96 `__add__number`. -/
noncomputable def Tr.addNum (t : Tr) (x : ℝ) : Res Tr :=
  match (polyify t).2 with
  | [] => .error .index
  | a :: cs => mkPoly (polyify t).1 ((a + x) :: cs)

/-- Sum of two coefficient lists. -/
noncomputable def addCoeffs : List ℝ → List ℝ → List ℝ
  | [], bs => bs
  | as, [] => as
  | a :: as, b :: bs => (a + b) :: addCoeffs as bs

/-- Product of two coefficient lists. -/
noncomputable def mulCoeffs : List ℝ → List ℝ → List ℝ
  | [], _ => []
  | a :: as, bs => addCoeffs (bs.map (a * ·)) (0 :: mulCoeffs as bs)

/-- Drop the zero coefficients of highest degree. -/
noncomputable def trimZeros (cs : List ℝ) : List ℝ := (cs.reverse.dropWhile (fun c => decide (c = 0))).reverse

/-- `sympy.Poly(...).all_coeffs()[::-1]` (transforms.py 108, 150). -/
noncomputable def allCoeffs (cs : List ℝ) : List ℝ := if trimZeros cs = [] then [0] else trimZeros cs

/-- transforms.py 97-109 `__add__poly`.  `sympy.Poly(constant)` without generators raises
`GeneratorsNeeded` (modelled as `ValueError`); coefficients that sympy would treat as generators, such as
`sqrt(2)`, are not modelled. -/
noncomputable def Tr.addPoly (t u : Tr) : Res Tr :=
  let (s, cs) := polyify t
  let (r, ds) := polyify u
  if r ≠ s then .error .value
  else if (allCoeffs cs).length ≤ 1 ∨ (allCoeffs ds).length ≤ 1 then .error .value
  else mkPoly s (allCoeffs (addCoeffs cs ds))

/-- transforms.py 738-743 `Piecewise.__add__`; 110-122 `__add__` of two transforms. -/
noncomputable def Tr.add (c : Ctx) (n : ℕ) (t u : Tr) : Res Tr :=
  match t, u with
  | .pw ts es _, .pw us fs _ => mkPiecewise c n (ts ++ us) (es ++ fs)
  | t, u => t.addPoly u

/-- transforms.py 130-134 `__mul__number`. -/
noncomputable def Tr.mulNum (t : Tr) (x : ℝ) : Res Tr := mkPoly (polyify t).1 ((polyify t).2.map (x * ·))

/-- transforms.py 135-138, 798-801: product of a transform and an event, in either order. -/
noncomputable def Tr.mulEvent (c : Ctx) (n : ℕ) (t : Tr) (e : Ev) : Res Tr := mkPiecewise c n [t] [e]

/-- transforms.py 139-151 `__mul__poly`. -/
noncomputable def Tr.mulPoly (t u : Tr) : Res Tr :=
  let (s, cs) := polyify t
  let (r, ds) := polyify u
  if r ≠ s then .error .value else mkPoly s (allCoeffs (mulCoeffs cs ds))

/-- transforms.py 177-187 `__truediv__`; `sympy.Rational(1, 0)` is complex infinity (modelled as an
error). -/
noncomputable def Tr.divNum (t : Tr) (x : ℝ) : Res Tr := if x = 0 then .error .value else t.mulNum x⁻¹

/-- transforms.py 190-200 `__rtruediv__`: `x / t`. -/
noncomputable def Tr.rdivNum (t : Tr) (x : ℝ) : Res Tr :=
  if x = 1 then .ok (.recip t) else (Tr.recip t).mulNum x

/-- transforms.py 203-204 `__sub__` for a number: `self + (-1 * x)`. -/
noncomputable def Tr.subNum (t : Tr) (x : ℝ) : Res Tr := t.addNum (-1 * x)

/-- transforms.py 203-204 `__sub__` for a transform. -/
noncomputable def Tr.subTr (c : Ctx) (n : ℕ) (t u : Tr) : Res Tr := do
  let m ← u.mulNum (-1)
  t.add c n m

/-- transforms.py 205-206 `__rsub__`: what `x - t` computes. -/
noncomputable def Tr.rsubNum (t : Tr) (x : ℝ) : Res Tr := t.subNum x

/-- transforms.py 208-209 `__neg__`, 676-677 for `Poly`. -/
noncomputable def Tr.neg : Tr → Res Tr
  | .poly s cs => mkPoly s (cs.map (fun c => -c))
  | t => t.mulNum (-1)

/-- transforms.py 211-212 `__abs__`, 572-573 for `Abs`. -/
def Tr.absOp : Tr → Tr
  | .abs t => .abs t
  | t => .abs t

/-- transforms.py 1207-1210 `Pow`. -/
def powTr (t : Tr) (n : ℕ) : Res Tr := mkPoly t (List.replicate n 0 ++ [1])

/-- transforms.py 215-220 `__pow__integer`. -/
noncomputable def Tr.powInt (t : Tr) (n : ℤ) : Res Tr :=
  if 0 < n then powTr t n.toNat
  else if n < 0 then do
    let p ← powTr t (-n).toNat
    p.rdivNum 1
  else .error .value

/-- transforms.py 221-230 `__pow__rational`. -/
noncomputable def Tr.powRat (t : Tr) (q : ℚ) : Res Tr :=
  if q.num = 1 then .ok (.radical t q.den)
  else if q.num = -1 then (Tr.radical t q.den).rdivNum 1
  else if q.den = 1 then t.powInt q.num
  else .error .value

/-- transforms.py 231-243 `t ** q` for a number: integers are handled first. -/
noncomputable def Tr.powNum (t : Tr) (q : ℚ) : Res Tr := if q.den = 1 then t.powInt q.num else t.powRat q

/-- transforms.py 244-249 `t ** (a, b)`. -/
noncomputable def Tr.powTuple (t : Tr) (a b : ℤ) : Res Tr :=
  if b = 0 then .error .value else t.powRat (a / b)

/-- transforms.py 265-276 `x ** t`. -/
noncomputable def Tr.rpowNum (t : Tr) (x : ℝ) : Res Tr := if x ≤ 0 then .error .value else .ok (.exp t x)

/-! ## Comparisons and membership -/

/-- transforms.py 281-288 `t <= x`. -/
noncomputable def Tr.leNum (t : Tr) (x : EReal) : Res Ev := (mkIvl ⊥ x false false).map (.ivl t)
/-- transforms.py 289-296 `t < x`. -/
noncomputable def Tr.ltNum (t : Tr) (x : EReal) : Res Ev := (mkIvl ⊥ x false true).map (.ivl t)
/-- transforms.py 297-304 `t >= x`. -/
noncomputable def Tr.geNum (t : Tr) (x : EReal) : Res Ev := (mkIvl x ⊤ false false).map (.ivl t)
/-- transforms.py 305-312 `t > x`. -/
noncomputable def Tr.gtNum (t : Tr) (x : EReal) : Res Ev := (mkIvl x ⊤ true false).map (.ivl t)

/-- `convert_sympy(sympy.Interval(a, b, lo, ro))` as an event on `t` (transforms.py 936-945, 952-961;
sympy opens infinite ends, returns the empty set for reversed or half-open degenerate intervals, and a
singleton for `a = b`; sets.py 426-439). -/
noncomputable def sympyInterval (t : Tr) (a b : EReal) (lo ro : Bool) : Res Ev :=
  if b < a then .ok (.fin t none)
  else if a = b then
    if lo = true ∨ ro = true ∨ a = ⊥ ∨ a = ⊤ then .ok (.fin t none) else .ok (.fin t (some {a}))
  else (mkIvl a b lo ro).map (.ivl t)

/-- transforms.py 930-945 `__compute_gte__`: `x < (t < b)`, strict when `lo`. -/
noncomputable def chainGt (t : Tr) (i : Ivl EReal) (x : EReal) (lo : Bool) : Res Ev :=
  if i.a ≠ ⊥ then .error .value else sympyInterval t x i.b lo i.ro

/-- transforms.py 946-961 `__compute_lte__`: `(a < t) < x`, strict when `ro`. -/
noncomputable def chainLt (t : Tr) (i : Ivl EReal) (x : EReal) (ro : Bool) : Res Ev :=
  if i.b ≠ ⊤ then .error .value else sympyInterval t i.a x i.lo ro

/-- `values_num` of transforms.py 326. -/
noncomputable def numVals (l : List (Val EReal)) : Finset EReal :=
  (l.filterMap (fun v => match v with | .num x => some x | .str _ => none)).toFinset
/-- `values_str` of transforms.py 327. -/
noncomputable def strVals (l : List (Val EReal)) : Finset String :=
  (l.filterMap (fun v => match v with | .num _ => none | .str s => some s)).toFinset

/-- transforms.py 324-336: `t << values` for a Python collection. -/
noncomputable def Tr.inList (t : Tr) (l : List (Val EReal)) : Ev :=
  if (numVals l).Nonempty ∧ (strVals l).Nonempty then
    .or [.fin t (some (numVals l)), .nom t (some ⟨strVals l, none⟩)]
  else if (numVals l).Nonempty then .fin t (some (numVals l))
  else if (strVals l).Nonempty then .nom t (some ⟨strVals l, none⟩)
  else .fin t none

/-- transforms.py 315-340: `t << S` for a set. -/
noncomputable def Tr.inSet (c : Ctx) (t : Tr) : SSet EReal → Res Ev
  | .empty => .ok (.fin t none)
  | .pc (.fin s) => .ok (.fin t (some s))
  | .pc (.nom n) => .ok (.nom t (some n))
  | .pc (.ivl i) => .ok (.ivl t i)
  | .un u => reduceM (Ev.lor c) (u.args.map (fun p => match p with
      | .fin s => .fin t (some s)
      | .nom n => .nom t (some n)
      | .ivl i => .ivl t i))

/-! ## Substitution -/

/-- An environment: an `OrderedDict` from variables to expressions. -/
abbrev Env := List (String × Tr)

/-- `env.get(s, s)`. -/
def Env.get (env : Env) (s : String) : Tr := (env.lookup s).getD (.id s)

/-- transforms.py 1212-1213 `expr_in_env`. -/
def exprInEnv (syms : Finset String) (env : Env) : Prop := ∃ s ∈ syms, env.get s ≠ .id s

mutual
/-- The `subs` methods of transforms: 368-371, 412-416, 451-455, 494-498, 538-542, 583-587, 645-649,
714-720. -/
noncomputable def Tr.subs (c : Ctx) (n : ℕ) (env : Env) : Tr → Res Tr
  | .id s => .ok (env.get s)
  | .radical t d => if ¬ exprInEnv t.symbols env then .ok (.radical t d) else do
      let t' ← t.subs c n env
      .ok (.radical t' d)
  | .exp t b => if ¬ exprInEnv t.symbols env then .ok (.exp t b) else do
      let t' ← t.subs c n env
      .ok (.exp t' b)
  | .log t b => if ¬ exprInEnv t.symbols env then .ok (.log t b) else do
      let t' ← t.subs c n env
      .ok (.log t' b)
  | .abs t => if ¬ exprInEnv t.symbols env then .ok (.abs t) else do
      let t' ← t.subs c n env
      .ok (.abs t')
  | .recip t => if ¬ exprInEnv t.symbols env then .ok (.recip t) else do
      let t' ← t.subs c n env
      .ok (.recip t')
  | .poly t cs => if ¬ exprInEnv t.symbols env then .ok (.poly t cs) else do
      let t' ← t.subs c n env
      mkPoly t' cs
  | .pw ts es ds => if ¬ exprInEnv (Tr.symbolsL ts) env then .ok (.pw ts es ds) else do
      let ts' ← Tr.subsL c n env ts
      let es' ← Ev.subsL c n env es
      mkPiecewise c n ts' es'
/-- `[subexpr.subs(env) for subexpr in self.subexprs]` (transforms.py 718). -/
noncomputable def Tr.subsL (c : Ctx) (n : ℕ) (env : Env) : List Tr → Res (List Tr)
  | [] => .ok []
  | t :: ts => do
    let t' ← t.subs c n env
    let ts' ← Tr.subsL c n env ts
    .ok (t' :: ts')
/-- The `subs` methods of events: transforms.py 840-844, 1087-1091. -/
noncomputable def Ev.subs (c : Ctx) (n : ℕ) (env : Env) : Ev → Res Ev
  | .ivl t i => if ¬ exprInEnv t.symbols env then .ok (.ivl t i) else do
      let t' ← t.subs c n env
      .ok (.ivl t' i)
  | .fin t v => if ¬ exprInEnv t.symbols env then .ok (.fin t v) else do
      let t' ← t.subs c n env
      .ok (.fin t' v)
  | .nom t v => if ¬ exprInEnv t.symbols env then .ok (.nom t v) else do
      let t' ← t.subs c n env
      .ok (.nom t' v)
  | .or es => if ¬ exprInEnv (Ev.symbolsL es) env then .ok (.or es) else do
      let es' ← Ev.subsL c n env es
      .ok (.or es')
  | .and es => if ¬ exprInEnv (Ev.symbolsL es) env then .ok (.and es) else do
      let es' ← Ev.subsL c n env es
      .ok (.and es')
/-- `[subexpr.subs(env) for subexpr in self.subexprs]` (transforms.py 719, 1090). -/
noncomputable def Ev.subsL (c : Ctx) (n : ℕ) (env : Env) : List Ev → Res (List Ev)
  | [] => .ok []
  | e :: es => do
    let e' ← e.subs c n env
    let es' ← Ev.subsL c n env es
    .ok (e' :: es')
end

/-- transforms.py 54-61 `substitute`: the `while` loop, with a bound on the number of iterations (the
answer `recursion` means that the bound was reached; Python would loop forever on a cyclic
environment). -/
noncomputable def Ev.substitute (c : Ctx) (n : ℕ) (env : Env) : ℕ → Ev → Res Ev
  | 0, e => if exprInEnv e.symbols env then .error .recursion else .ok e
  | k + 1, e => if exprInEnv e.symbols env then do
      let e' ← e.subs c n env
      Ev.substitute c n env k e'
    else .ok e

/-! ## Evaluation -/

/-- Results of `evaluate`: `Logarithm.ffwd` returns a Python set with one number (transforms.py 504). -/
inductive PyV
  | val (v : Val ℝ)
  | set

/-- `assert x in self.domain()` for a domain that contains every finite real; a string or a set makes the
assertion or a comparison fail. -/
def PyV.num : PyV → Res ℝ
  | .val (.num x) => .ok x
  | _ => .error .type

/-- The `evaluate` methods: transforms.py 372-378, 417-422, 456-461, 499-504, 543-548, 588-593, 650-656,
721-725. -/
noncomputable def Tr.evaluate (ω : String → Option (Val ℝ)) : Tr → Res PyV
  | .id s =>
    match ω s with
    | some v => .ok (.val v)
    | none => .error .value
  | .radical t n => do
    let v ← t.evaluate ω
    let x ← v.num
    if x < 0 then .error .assertion else .ok (.val (.num (x ^ ((n : ℝ)⁻¹))))
  | .exp t b => do
    let v ← t.evaluate ω
    let x ← v.num
    .ok (.val (.num (b ^ x)))
  | .log t _ => do
    let v ← t.evaluate ω
    let x ← v.num
    if x < 0 then .error .assertion else .ok .set
  | .abs t => do
    let v ← t.evaluate ω
    let x ← v.num
    .ok (.val (.num (if 0 < x then x else -x)))
  | .recip t => do
    let v ← t.evaluate ω
    let x ← v.num
    if x = 0 then .error .assertion else .ok (.val (.num x⁻¹))
  | .poly t cs => do
    let v ← t.evaluate ω
    let x ← v.num
    .ok (.val (.num (cs.foldr (fun c acc => c + x * acc) 0)))
  | .pw _ _ _ => .error .notImplemented

/-- `x in self.values` (transforms.py 848-849): sets.py 22-23, 51-54, 111-113, 185-194. A set equals no
number, is in no `FiniteNominal`, and cannot be compared with the end points of an interval. -/
noncomputable def PyV.isIn (v : PyV) (s : SSet EReal) : Res Bool :=
  match v with
  | .val (.num x) => s.contains (.num (x : EReal))
  | .val (.str x) => s.contains (.str x)
  | .set =>
    match s with
    | .pc (.nom n) => .ok n.neg
    | .pc (.ivl _) => .error .type
    | _ => .ok false

mutual
/-- The `evaluate` methods of events: transforms.py 845-849, 1094-1096, 1144-1146. -/
noncomputable def Ev.evaluate (ω : String → Option (Val ℝ)) : Ev → Res Bool
  | .ivl t i => do
    let v ← t.evaluate ω
    v.isIn (.pc (.ivl i))
  | .fin t s => do
    let v ← t.evaluate ω
    v.isIn (optFin s)
  | .nom t n => do
    let v ← t.evaluate ω
    v.isIn (optNom n)
  | .or es => do
    let bs ← Ev.evaluateL ω es
    .ok (bs.any id)
  | .and es => do
    let bs ← Ev.evaluateL ω es
    .ok (bs.all id)
/-- `[event.evaluate(assignment) for event in self.subexprs]`. -/
noncomputable def Ev.evaluateL (ω : String → Option (Val ℝ)) : List Ev → Res (List Bool)
  | [] => .ok []
  | e :: es => do
    let b ← e.evaluate ω
    let bs ← Ev.evaluateL ω es
    .ok (b :: bs)
end

end Sppl
