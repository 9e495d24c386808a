import Mathlib.Order.BoundedOrder.Basic
import Mathlib.Data.Finset.Sort
import Mathlib.Data.List.Sort
import Mathlib.Data.List.Dedup

/-!
# Model of `/repo/src/sets.py`

Numbers are elements of a bounded linear order `E` whose bottom and top play the role of
`-inf` and `inf` (`sets.py` 12-13).  The order is instantiated with `EReal` for the semantics and
with `WithBot (WithTop ℚ)` for computed witnesses.  Exceptions are values of `Err`.
-/

namespace Sppl

/-- The Python exceptions that the modelled code can raise. -/
inductive Err
  | assertion | index | type | value | notImplemented | key | attribute | recursion
  deriving DecidableEq, Repr

/-- Result of a Python call: a value or an exception. -/
abbrev Res (β : Type) := Except Err β

/-- sets.py 176-184, the attributes of an `Interval`.  `left_open`/`right_open` are stored as
booleans (after `__init__` they are always `True` or `False`). -/
structure Ivl (E : Type) where
  a : E
  b : E
  lo : Bool
  ro : Bool
  deriving DecidableEq, Repr

/-- sets.py 46-50, the attributes of a `FiniteNominal`; `b` is `None`, `False` or `True`. -/
structure Nom where
  vals : Finset String
  b : Option Bool
  deriving DecidableEq

/-- The three non-empty, non-`Union` kinds of set (sets.py 46, 107, 176). A `FiniteReal` is its
frozenset of values. -/
inductive Piece (E : Type)
  | nom (n : Nom)
  | fin (s : Finset E)
  | ivl (i : Ivl E)
  deriving DecidableEq

/-- sets.py 279-304, the attributes of a `Union`.  `intervals` and `values` are the frozensets in
their iteration order. `nominals`/`atoms` use `none` for `EmptySet`. -/
structure Un (E : Type) where
  nominals : Option Nom
  atoms : Option (Finset E)
  intervals : List (Ivl E)
  values : List (Piece E)
  args : List (Piece E)
  deriving DecidableEq

/-- The Python class hierarchy `Set` (sets.py 15). -/
inductive SSet (E : Type)
  | empty
  | pc (p : Piece E)
  | un (u : Un E)
  deriving DecidableEq

/-- Iteration order of frozensets (sets.py 292, 301): an arbitrary function from the sequence of
inserted elements to the sequence produced by iterating the frozenset.  CPython's order is a function
of the insertion sequence and of the hashes; nothing else is assumed. -/
structure Orders (E : Type) [DecidableEq E] where
  ivls : List (Ivl E) → List (Ivl E)
  vals : List (Piece E) → List (Piece E)
  ivls_perm : ∀ l, (ivls l).Perm l.dedup
  vals_perm : ∀ l, (vals l).Perm l.dedup

/-- Insertion order, used by the executable witnesses. -/
def Orders.id (E : Type) [DecidableEq E] : Orders E where
  ivls l := l.dedup
  vals l := l.dedup
  ivls_perm _ := .refl _
  vals_perm _ := .refl _

/-- A value tested for membership: a Python string or an (extended) number. -/
inductive Val (E : Type)
  | str (s : String)
  | num (x : E)
  deriving DecidableEq

/-- `x is EmptySet` (the empty set is a singleton object, sets.py 18, 407). -/
def SSet.isEmpty {E : Type} : SSet E → Bool
  | .empty => true
  | _ => false

/-- `isinstance(x, Union)`. -/
def SSet.isUnion {E : Type} : SSet E → Bool
  | .un _ => true
  | _ => false

/-- The non-empty, non-union set, if it is one. -/
def SSet.piece? {E : Type} : SSet E → Option (Piece E)
  | .pc p => some p
  | _ => none

/-- The `FiniteNominal`, if it is one. -/
def Piece.nom? {E : Type} : Piece E → Option Nom
  | .nom n => some n
  | _ => none

/-- The `FiniteReal`, if it is one. -/
def Piece.fin? {E : Type} : Piece E → Option (Finset E)
  | .fin n => some n
  | _ => none

/-- The `Interval`, if it is one. -/
def Piece.ivl? {E : Type} : Piece E → Option (Ivl E)
  | .ivl n => some n
  | _ => none

variable {E : Type} [LinearOrder E] [BoundedOrder E]

/-- sets.py 47-50 `FiniteNominal.__init__`. -/
def mkNom (vals : Finset String) (b : Option Bool) : Res Nom :=
  if vals.Nonempty ∨ b = some true then .ok ⟨vals, b⟩ else .error .assertion

/-- Truthiness of the attribute `b`. -/
def Nom.neg (n : Nom) : Bool := n.b == some true

/-- sets.py 51-54 `FiniteNominal.__contains__` on a string. -/
def Nom.has (n : Nom) (s : String) : Bool :=
  if n.neg then !decide (s ∈ n.vals) else decide (s ∈ n.vals)

/-- sets.py 55-59 `FiniteNominal.__invert__`. -/
def Nom.invert (n : Nom) : Res (SSet E) :=
  if n.vals = ∅ then
    if n.neg then .ok .empty else .error .assertion
  else do
    let m ← mkNom n.vals (some (!n.neg))
    .ok (.pc (.nom m))

/-- `FiniteNominal(*values) if values else EmptySet` (sets.py 64, 67). -/
def nomOrEmpty (vals : Finset String) : Res (SSet E) :=
  if vals = ∅ then .ok .empty else do
    let m ← mkNom vals none
    .ok (.pc (.nom m))

/-- sets.py 61-69 `FiniteNominal.__and__` on a `FiniteNominal`. -/
def Nom.and (self x : Nom) : Res (SSet E) :=
  if !self.neg then nomOrEmpty (self.vals.filter (fun v => x.has v))
  else if !x.neg then nomOrEmpty (x.vals.filter (fun v => self.has v))
  else do
    let m ← mkNom (self.vals ∪ x.vals) (some true)
    .ok (.pc (.nom m))

/-- sets.py 76-84 `FiniteNominal.__or__` on a `FiniteNominal`. -/
def Nom.or (self x : Nom) : Res Nom :=
  if self.neg then mkNom (self.vals.filter (fun v => !x.has v)) self.b
  else if x.neg then mkNom (x.vals.filter (fun v => !self.has v)) x.b
  else mkNom (self.vals ∪ x.vals) (some false)

/-- sets.py 177-184 `Interval.__init__`. -/
def mkIvl (a b : E) (lo ro : Bool) : Res (Ivl E) :=
  if a < b then .ok ⟨a, b, lo || decide (a = ⊥), ro || decide (b = ⊤)⟩ else .error .assertion

/-- sets.py 185-194 `Interval.__contains__` on a number. -/
def Ivl.has (i : Ivl E) (x : E) : Bool :=
  if i.lo && i.ro then decide (i.a < x ∧ x < i.b)
  else if i.lo && !i.ro then decide (i.a < x ∧ x ≤ i.b)
  else if !i.lo && i.ro then decide (i.a ≤ x ∧ x < i.b)
  else decide (i.a ≤ x ∧ x ≤ i.b)

/-- `FiniteReal(*values) if values else EmptySet` (sets.py 127, 130). -/
def finOrEmpty (s : Finset E) : SSet E :=
  if s = ∅ then .empty else .pc (.fin s)

/-- sets.py 280-304 `Union.__init__`. -/
def mkUnion (σ : Orders E) (vs : List (SSet E)) : Res (SSet E) :=
  if vs.any SSet.isUnion then .error .assertion
  else
    let ne := vs.filterMap SSet.piece?
    if ne = [] then .error .assertion
    else
      let noms := ne.filterMap Piece.nom?
      let atoms := ne.filterMap Piece.fin?
      if 1 < noms.length then .error .assertion
      else if 1 < atoms.length then .error .assertion
      else
        let ivls := σ.ivls (ne.filterMap Piece.ivl?)
        let vals := σ.vals (noms.map .nom ++ atoms.map .fin ++ ivls.map .ivl)
        if vals.length < 2 then .error .assertion
        else .ok (.un ⟨noms.head?, atoms.head?, ivls, vals, ne⟩)

/-- sets.py 195-204 `Interval.__invert__`. -/
def Ivl.invert (σ : Orders E) (i : Ivl E) : Res (SSet E) :=
  if i.a = ⊥ then
    if i.b = ⊤ then .ok .empty
    else do
      let r ← mkIvl i.b ⊤ (!i.ro) false
      .ok (.pc (.ivl r))
  else if i.b = ⊤ then do
    let l ← mkIvl ⊥ i.a false (!i.lo)
    .ok (.pc (.ivl l))
  else do
    let l ← mkIvl ⊥ i.a false (!i.lo)
    let r ← mkIvl i.b ⊤ (!i.ro) false
    mkUnion σ [.pc (.ivl l), .pc (.ivl r)]

/-- sets.py 206-227 `Interval.__and__` on an `Interval`. -/
def Ivl.and (self x : Ivl E) : Res (SSet E) :=
  if x = self then .ok (.pc (.ivl x))
  else if self.has x.a && self.has x.b then .ok (.pc (.ivl x))
  else if x.has self.a && x.has self.b then .ok (.pc (.ivl self))
  else if self.has x.a then
    if self.b = x.a then .ok (if x.has x.a then .pc (.fin {x.a}) else .empty)
    else do
      let r ← mkIvl x.a self.b x.lo self.ro
      .ok (.pc (.ivl r))
  else if self.has x.b then
    if self.a = x.b then .ok (if x.has x.b then .pc (.fin {x.b}) else .empty)
    else do
      let r ← mkIvl self.a x.b self.lo x.ro
      .ok (.pc (.ivl r))
  else if self.a = x.a then do
    let r ← mkIvl self.a self.b (self.lo || x.lo) self.ro
    .ok (.pc (.ivl r))
  else if self.b = x.b then do
    let r ← mkIvl self.a self.b self.lo (self.ro || x.ro)
    .ok (.pc (.ivl r))
  else .ok .empty

/-- Tuple comparison used by `sorted` at sets.py 242-246 (`False < True`). -/
def endLe (p q : E × Bool) : Bool :=
  decide (p.1 < q.1) || (decide (p.1 = q.1) && (!p.2 || q.2))

/-- sets.py 242-249, the merging branch of `Interval.__or__` on an `Interval`. -/
def Ivl.merge (self x : Ivl E) : Res (SSet E) :=
  match [(self.a, self.lo), (self.b, self.ro), (x.a, x.lo), (x.b, x.ro)].insertionSort
      (fun p q => endLe p q = true) with
  | [al, am, bm, br] => do
    let lo := if al.1 < am.1 then al.2 else al.2 && am.2
    let ro := if bm.1 < br.1 then br.2 else bm.2 && br.2
    let r ← mkIvl al.1 br.1 lo ro
    .ok (.pc (.ivl r))
  | _ => .error .assertion

/-- sets.py 232-249 `Interval.__or__` on an `Interval`. -/
def Ivl.or (σ : Orders E) (self x : Ivl E) : Res (SSet E) :=
  if self = x then .ok (.pc (.ivl self))
  else do
    let inter ← Ivl.and x self
    if inter.isEmpty && !x.has self.a && !x.has self.b && !self.has x.a && !self.has x.b then
      mkUnion σ [.pc (.ivl self), .pc (.ivl x)]
    else Ivl.merge self x

/-- sets.py 114-123 `FiniteReal.__invert__`. -/
def finInvert (σ : Orders E) (s : Finset E) : Res (SSet E) :=
  let vs := s.sort (· ≤ ·)
  match vs, vs.getLast? with
  | v0 :: _, some vl => do
    let l ← mkIvl ⊥ v0 false true
    let mids ← (vs.zip vs.tail).mapM (fun p => mkIvl p.1 p.2 true true)
    let r ← mkIvl vl ⊤ true false
    mkUnion σ (([l] ++ mids ++ [r]).map (fun i => .pc (.ivl i)))
  | _, _ => .error .index

/-- sets.py 140-155 `FiniteReal.__or__` on an `Interval`. -/
def finOrIvl (σ : Orders E) (s : Finset E) (i : Ivl E) : Res (SSet E) := do
  let (s, i) ←
    if i.a ∈ s ∧ i.lo = true then do
      let j ← mkIvl i.a i.b false i.ro
      .ok (s.erase i.a, j)
    else .ok (s, i)
  let (s, i) ←
    if i.b ∈ s ∧ i.ro = true then do
      let j ← mkIvl i.a i.b i.lo false
      .ok (s.erase i.b, j)
    else .ok (s, i)
  let s := s.filter (fun v => !i.has v)
  if s = ∅ then .ok (.pc (.ivl i))
  else mkUnion σ [.pc (.fin s), .pc (.ivl i)]

/-- `A & B` for two non-union sets: sets.py 60-74, 124-135, 205-230. -/
def Piece.and : Piece E → Piece E → Res (SSet E)
  | .nom n, .nom m => Nom.and n m
  | .nom _, .fin _ => .ok .empty
  | .nom _, .ivl _ => .ok .empty
  | .fin _, .nom _ => .ok .empty
  | .fin s, .fin t => .ok (finOrEmpty (s ∩ t))
  | .fin s, .ivl i => .ok (finOrEmpty (s.filter (fun v => i.has v)))
  | .ivl _, .nom _ => .ok .empty
  | .ivl i, .fin s => .ok (finOrEmpty (s.filter (fun v => i.has v)))
  | .ivl i, .ivl j => Ivl.and i j

/-- `A | B` for two non-union sets: sets.py 75-89, 136-160, 231-252. -/
def Piece.or (σ : Orders E) : Piece E → Piece E → Res (SSet E)
  | .nom n, .nom m => do
    let r ← Nom.or n m
    .ok (.pc (.nom r))
  | .nom n, .fin s => mkUnion σ [.pc (.nom n), .pc (.fin s)]
  | .nom n, .ivl i => mkUnion σ [.pc (.nom n), .pc (.ivl i)]
  | .fin s, .nom n => mkUnion σ [.pc (.fin s), .pc (.nom n)]
  | .fin s, .fin t => .ok (.pc (.fin (s ∪ t)))
  | .fin s, .ivl i => finOrIvl σ s i
  | .ivl i, .nom n => mkUnion σ [.pc (.nom n), .pc (.ivl i)]
  | .ivl i, .fin s => finOrIvl σ s i
  | .ivl i, .ivl j => Ivl.or σ i j

/-- Loop of `union_intervals` (sets.py 369-376); `blocks` is kept reversed, `last` is
`blocks[-1]`. -/
def unionIntervalsLoop (σ : Orders E) :
    List (Ivl E) → Ivl E → List (Ivl E) → Res (List (Ivl E))
  | acc, last, [] => .ok (last :: acc).reverse
  | acc, last, i :: rest => do
    match ← Ivl.or σ last i with
    | .pc (.ivl j) => unionIntervalsLoop σ acc j rest
    | .un _ => unionIntervalsLoop σ (last :: acc) i rest
    | _ => .error .assertion

/-- sets.py 366-377 `union_intervals`. -/
def unionIntervals (σ : Orders E) (l : List (Ivl E)) : Res (List (Ivl E)) :=
  match l.insertionSort (fun i j => i.a ≤ j.a) with
  | [] => .error .index
  | i :: rest => unionIntervalsLoop σ [] i rest

/-- `interval | finite_current` (sets.py 385), where `none` is `EmptySet`. -/
def Ivl.orOptFin (σ : Orders E) (i : Ivl E) : Option (Finset E) → Res (SSet E)
  | none => .ok (.pc (.ivl i))
  | some s => finOrIvl σ s i

/-- Loop of `union_intervals_finite` (sets.py 384-396); `none` is `EmptySet`, `blocks` reversed. -/
def unionFiniteLoop (σ : Orders E) :
    List (Ivl E) → Option (Finset E) → List (Ivl E) → Res (List (Ivl E) × Option (Finset E))
  | blocks, fin, [] => .ok (blocks.reverse, fin)
  | blocks, fin, i :: rest => do
    match ← i.orOptFin σ fin with
    | .pc (.ivl j) => unionFiniteLoop σ (j :: blocks) none rest
    | .un u =>
      match u.atoms, u.intervals with
      | some s, [j] => unionFiniteLoop σ (j :: blocks) (some s) rest
      | _, _ => .error .assertion
    | _ => .error .assertion

/-- sets.py 379-400 `union_intervals_finite`. -/
def unionIntervalsFinite (σ : Orders E) (l : List (Ivl E)) (fin : Option (Finset E)) :
    Res (List (Piece E)) :=
  match fin with
  | none => do
    let r ← unionIntervals σ l
    .ok (r.map .ivl)
  | some s => do
    let (blocks, cur) ← unionFiniteLoop σ [] (some s) l
    let merged ← unionIntervals σ blocks
    match cur with
    | none => .ok (merged.map .ivl)
    | some t => .ok (merged.map .ivl ++ [.fin t])

/-- `EmptySet` or a nominal set, as stored in `Union.nominals`. -/
def optNom (n : Option Nom) : SSet E :=
  match n with | none => .empty | some n => .pc (.nom n)

/-- `EmptySet` or a finite set, as stored in `Union.atoms`. -/
def optFin (s : Option (Finset E)) : SSet E :=
  match s with | none => .empty | some s => .pc (.fin s)

/-- Shared tail of sets.py 346-349 and 353-356. -/
def finishBlocks (σ : Orders E) (noms : Option Nom) (blocks : List (Piece E)) : Res (SSet E) :=
  match blocks, noms with
  | [], _ => .error .assertion
  | [p], none => .ok (.pc p)
  | ps, n => mkUnion σ (optNom n :: ps.map .pc)

/-- `self.nominals | x` (sets.py 341), where `none` is `EmptySet`. -/
def orOptNom (k : Option Nom) (n : Nom) : Res Nom :=
  match k with
  | none => .ok n
  | some k => Nom.or k n

/-- `self.atoms | x` (sets.py 344), where `none` is `EmptySet`. -/
def orOptFin (k : Option (Finset E)) (s : Finset E) : Finset E :=
  match k with
  | none => s
  | some t => t ∪ s

/-- sets.py 337-356 `Union.__or__` on a non-union set. -/
def Un.orPiece (σ : Orders E) (u : Un E) : Piece E → Res (SSet E)
  | .nom n => do
    let m ← orOptNom u.nominals n
    mkUnion σ (.pc (.nom m) :: optFin u.atoms :: u.intervals.map (fun i => .pc (.ivl i)))
  | .fin s => do
    let blocks ← unionIntervalsFinite σ u.intervals (some (orOptFin u.atoms s))
    finishBlocks σ u.nominals blocks
  | .ivl i => do
    let blocks ← unionIntervalsFinite σ (u.intervals ++ [i]) u.atoms
    finishBlocks σ u.nominals blocks

/-- `A | p` for any set and a non-union set. -/
def SSet.orPiece (σ : Orders E) (s : SSet E) (p : Piece E) : Res (SSet E) :=
  match s with
  | .empty => .ok (.pc p)
  | .pc q => Piece.or σ q p
  | .un u => u.orPiece σ p

/-- `A | B`: sets.py 32-35, 75-89, 136-160, 231-252, 337-359. -/
def SSet.or (σ : Orders E) : SSet E → SSet E → Res (SSet E)
  | .empty, t => .ok t
  | s, .empty => .ok s
  | .pc p, .pc q => Piece.or σ p q
  | .pc p, .un u => u.orPiece σ p
  | .un u, .pc p => u.orPiece σ p
  | .un u, .un v => v.values.foldlM (fun s p => s.orPiece σ p) (.un u)

/-- `self.atoms & x` (sets.py 323), where `none` is `EmptySet`. -/
def andOptFin (k : Option (Finset E)) (p : Piece E) : Res (SSet E) :=
  match k with
  | none => .ok .empty
  | some s => Piece.and (.fin s) p

/-- `self.nominals & x` (sets.py 321), where `none` is `EmptySet`. -/
def andOptNom (k : Option Nom) (n : Nom) : Res (SSet E) :=
  match k with
  | none => .ok .empty
  | some k => Nom.and k n

/-- sets.py 326-333, the end of `Union.__and__` on a real set: `atoms` and the non-empty
intersections of the intervals. -/
def finishAnd (σ : Orders E) (atoms : SSet E) (ne : List (SSet E)) : Res (SSet E) :=
  match atoms, ne with
  | .empty, [] => .ok .empty
  | .empty, [s] => .ok s
  | atoms, [] => .ok atoms
  | atoms, ne => mkUnion σ (atoms :: ne)

/-- sets.py 317-333 `Union.__and__` on a non-union set. -/
def Un.andPiece (σ : Orders E) (u : Un E) (p : Piece E) : Res (SSet E) :=
  match p with
  | .nom n => andOptNom u.nominals n
  | p => do
    let atoms ← andOptFin u.atoms p
    let ints ← u.intervals.mapM (fun i => Piece.and (.ivl i) p)
    finishAnd σ atoms (ints.filter (fun s => !s.isEmpty))

/-- `functools.reduce` with a function that can raise; `TypeError` on an empty sequence. -/
def reduceM {β : Type} (f : β → β → Res β) : List β → Res β
  | [] => .error .type
  | x :: xs => xs.foldlM f x

/-- `A & B`: sets.py 28-31, 60-74, 124-135, 205-230, 317-336. -/
def SSet.and (σ : Orders E) : SSet E → SSet E → Res (SSet E)
  | .empty, _ => .ok .empty
  | _, .empty => .ok .empty
  | .pc p, .pc q => Piece.and p q
  | .pc p, .un u => u.andPiece σ p
  | .un u, .pc p => u.andPiece σ p
  | .un u, .un v => do
    let terms ← v.values.mapM (fun p => u.andPiece σ p)
    reduceM (SSet.or σ) terms

/-- `~p` for a non-union set: sets.py 55-59, 114-123, 195-204. -/
def Piece.invert (σ : Orders E) : Piece E → Res (SSet E)
  | .nom n => n.invert
  | .fin s => finInvert σ s
  | .ivl i => i.invert σ

/-- `~A`: sets.py 24-27, 55-59, 114-123, 195-204, 360-362. -/
def SSet.invert (σ : Orders E) : SSet E → Res (SSet E)
  | .empty => do
    let r ← mkIvl ⊥ ⊤ false false
    .ok (.pc (.ivl r))
  | .pc p => p.invert σ
  | .un u => do
    let inv ← u.values.mapM (fun p => p.invert σ)
    reduceM (SSet.and σ) inv

/-- sets.py 402-403 `make_union`. -/
def makeUnion (σ : Orders E) (l : List (SSet E)) : Res (SSet E) := reduceM (SSet.or σ) l

/-- sets.py 404-405 `make_intersection`. -/
def makeIntersection (σ : Orders E) (l : List (SSet E)) : Res (SSet E) := reduceM (SSet.and σ) l

/-- `x in p` for a non-union set: sets.py 51-54, 111-113, 185-194.  A number is never in
`values` of a `FiniteNominal`; comparing a string with an endpoint raises `TypeError`. -/
def Piece.contains : Piece E → Val E → Res Bool
  | .nom n, .str s => .ok (n.has s)
  | .nom n, .num _ => .ok n.neg
  | .fin _, .str _ => .ok false
  | .fin s, .num x => .ok (decide (x ∈ s))
  | .ivl _, .str _ => .error .type
  | .ivl i, .num x => .ok (i.has x)

/-- `any(x in v for v in values)` (sets.py 306): left to right, short-circuiting. -/
def anyContains (v : Val E) : List (Piece E) → Res Bool
  | [] => .ok false
  | p :: ps => do
    if ← p.contains v then .ok true else anyContains v ps

/-- `x in A`: sets.py 22-23, 51-54, 111-113, 185-194, 305-306. -/
def SSet.contains : SSet E → Val E → Res Bool
  | .empty, _ => .ok false
  | .pc p, v => p.contains v
  | .un u, v => anyContains v u.values

/-- `A == B`: sets.py 36-37, 90-93, 161-163, 253-258, 307-309.  Equality of the frozensets
`values` compares hashes first, and the hash of a `FiniteNominal` includes the raw attribute `b`
(sets.py 94-96), so inside a `Union` a nominal with `b=None` never equals one with `b=False`; this is
modelled by structural equality of the elements. -/
def SSet.eqPy : SSet E → SSet E → Bool
  | .empty, .empty => true
  | .pc (.nom n), .pc (.nom m) => n.neg == m.neg && decide (n.vals = m.vals)
  | .pc (.fin s), .pc (.fin t) => decide (s = t)
  | .pc (.ivl i), .pc (.ivl j) => decide (i = j)
  | .un u, .un v => decide (u.values.toFinset = v.values.toFinset)
  | _, _ => false

/-- sets.py 410 `Reals = Interval(-inf, inf)`. -/
def SSet.reals : SSet E := .pc (.ivl ⟨⊥, ⊤, true, true⟩)
/-- sets.py 413 `Strings = FiniteNominal(b=True)`. -/
def SSet.strings : SSet E := .pc (.nom ⟨∅, some true⟩)

end Sppl
